import Verif.Proofs.Footprint

/-! The accesses of each function cover what it uses. -/

namespace Verif.Borrow
open Spec

variable {R : Rules} {N : Nat} {ε ε' α β : Type} {F : Prop} {w : World (traced R) N} {self arg text : Tag}

/-! ### The functions that only read -/

theorem at_len : At F w (len self : M (World (traced R) N) ε Nat) fun n s k =>
    s = w.str ∧ n = s.len ∧ (k N).read = true := by
  refine at_callShared fun u w1 h1 h2 => ?_
  refine at_bind (Q := fun _ s k => s = w.str ∧ (k N).read = true)
    (at_readAt fun k _ hk => ⟨h1, hk N (Nat.le_refl _) (by omega)⟩) ?_
  intro _ w2 _ ⟨h3, h4⟩
  refine at_get (fun _ s2 _ ha => ?_) (at_pure fun _ => ⟨h3, rfl, h4⟩)
  simp only [ArrayString.len, byteAt_size (ha N (Nat.le_refl _) h4)]

theorem at_asRefBytes : At F w (asRefBytes self : M (World (traced R) N) ε _) fun a s k =>
    s = w.str ∧ a.2 = s.len ∧ (k N).read = true := by
  refine at_callRef (Q := fun n s k => s = w.str ∧ n = s.len ∧ (k N).read = true) fun u w1 h1 h2 => ?_
  refine at_bind at_len fun _ w2 _ ⟨h3, _, _⟩ => ?_
  refine at_bind (Q := fun _ s _ => s = w2.str) (at_retagShared fun _ => rfl) fun a w3 _ h4 => ?_
  refine at_bind (Q := fun _ s _ => s = w3.str) (at_through fun _ => rfl) fun a w4 _ h5 => ?_
  refine at_bind at_len fun n w5 _ ⟨h6, h7, h8⟩ => ?_
  refine at_bind (Q := fun _ s k => s = w5.str ∧ k = marks w5) (at_through fun _ => ⟨rfl, rfl⟩)
    fun a w6 _ ⟨h9, h10⟩ => ?_
  exact at_pure fun _ => ⟨by rw [h9, h6, h5, h4, h3, h1], by rw [h9]; exact h7, by rw [h10]; exact h8⟩

theorem at_asRefStr : At F w (asRefStr self : M (World (traced R) N) ε _) fun a s k =>
    s = w.str ∧ a.2 = s.len ∧ Seen s k := by
  refine at_callRef (Q := fun n s k => s = w.str ∧ n = s.len ∧ Seen s k) fun u w1 h1 h2 => ?_
  refine at_bind at_asRefBytes ?_
  rintro ⟨a, n⟩ w2 _ ⟨h3, h4, h5⟩
  refine at_bind (Q := fun _ s k => s = w2.str ∧ Seen s k)
    (at_readAt fun k hm hk => ⟨rfl, hm _ h5, fun l hl => hk l (Nat.zero_le _) (by rw [show n = w2.str.len from h4]; exact hl)⟩) ?_
  intro _ w3 _ ⟨h6, h7⟩
  refine at_bind at_asRefBytes ?_
  rintro ⟨a, n⟩ w4 c4 ⟨h8, h9, h10⟩
  refine at_bind (Q := fun _ s k => s = w4.str ∧ k = marks w4) (at_through fun _ => ⟨rfl, rfl⟩)
    fun a w6 _ ⟨h11, h12⟩ => ?_
  refine at_pure fun _ => ⟨by rw [h11, h8, h6, h3, h1], by rw [h11]; exact h9, ?_⟩
  rw [h11, h12, h8]
  exact h7.mono c4

theorem at_asStr : At F w (asStr self : M (World (traced R) N) ε _) fun a s k =>
    s = w.str ∧ a.2 = s.len ∧ Seen s k :=
  at_callRef (Q := fun n s k => s = w.str ∧ n = s.len ∧ Seen s k) fun _ _ h1 _ =>
    at_mono at_asRefStr fun _ _ _ ⟨h2, h3, h4⟩ => ⟨h2.trans h1, h3, h4⟩

theorem at_look : At F w (look self : M (World (traced R) N) ε _) fun n s k =>
    s = w.str ∧ n = s.len ∧ Seen s k := by
  refine at_bind at_asStr ?_
  rintro ⟨a, n⟩ w2 _ ⟨h3, h4, h5⟩
  refine at_bind (Q := fun _ s k => s = w2.str ∧ Seen s k)
    (at_readAt fun k hm hk => ⟨rfl, hm _ h5.1, fun l hl => hm l (h5.2 l hl)⟩) ?_
  intro _ w3 _ ⟨h6, h7⟩
  exact at_pure fun _ => ⟨h6.trans h3, h6 ▸ h4, h7⟩

theorem at_readBoundary {t : Tag} {lo n idx : Nat} :
    At F w (readBoundary t lo n idx : M (World (traced R) N) ε _) fun _ s _ => s = w.str := by
  refine at_passShared fun u w1 h1 _ => ?_
  split
  · exact at_readAt fun _ _ _ => h1
  · exact at_pure fun _ => h1

theorem at_selfBoundary {idx : Nat} : At F w (selfBoundary self idx : M (World (traced R) N) ε _) fun _ s k =>
    s = w.str ∧ Seen s k := by
  refine at_bind at_asStr ?_
  rintro ⟨a, n⟩ w2 _ ⟨h3, h4, h5⟩
  intro hf r w' e hr
  obtain ⟨c, h6, h7⟩ := at_readBoundary hf r w' e hr
  exact ⟨c, fun a ha => ⟨(h6 a ha).trans h3, by rw [h6 a ha]; exact h5.mono c⟩, h7⟩

theorem at_isCharBoundary {idx : Nat} : At F w (isCharBoundary self idx : M (World (traced R) N) _ _) fun _ s k =>
    s = w.str ∧ Seen s k := by
  refine at_bind (Q := fun _ s k => s = w.str ∧ Seen s k) (at_callShared fun u w1 h1 _ =>
    at_mono at_selfBoundary fun _ _ _ ⟨h2, h3⟩ => ⟨h2.trans h1, h3⟩) ?_
  intro _ w2 _ ⟨h1, h2⟩
  refine at_get (fun f s2 f2 ha => ?_) (at_lift fun _ _ => ⟨h1, h2⟩)
  simp only [ArrayString.isCharBoundary, h2.asStr f f2 ha]

theorem at_rangeEnd {r : RangeB} : At F w (rangeEnd self r : M (World (traced R) N) ε _) fun _ s _ => s = w.str := by
  unfold rangeEnd
  split
  · exact at_pure fun _ => rfl
  · exact at_pure fun _ => rfl
  · exact at_mono at_len fun _ _ _ h => h.1

/-! ### `replace_range` -/

theorem at_asMutPtr : At F w (asMutPtr self : M (World (traced R) N) ε _) fun _ s k => s = w.str ∧ k = marks w := by
  refine at_bind (Q := fun _ s k => s = w.str ∧ k = marks w) (at_retagUnique fun _ => ⟨rfl, rfl⟩) fun _ w1 _ h => ?_
  refine at_bind (Q := fun _ s k => s = w.str ∧ k = marks w) (at_retagUnique fun _ => h) fun _ w1 _ h => ?_
  refine at_bind (Q := fun _ s k => s = w.str ∧ k = marks w) (at_retagUnique fun _ => h) fun _ w1 _ h => ?_
  refine at_bind (Q := fun _ s k => s = w.str ∧ k = marks w) (at_fresh fun _ => h) fun _ w1 _ h => ?_
  refine at_bind (Q := fun _ s k => s = w.str ∧ k = marks w) (at_rawMut h) fun _ w1 _ h => ?_
  refine at_bind (Q := fun _ s k => s = w.str ∧ k = marks w) (at_release h) fun _ w1 _ h => ?_
  exact at_pure fun _ => h

theorem byteAt_lt {s : ArrayString N} {l : Nat} (h : l < N) : byteAt s l = s.array[l]? := by simp [byteAt, h]

theorem byteAt_eq {s : ArrayString N} : byteAt s N = some s.size := by simp [byteAt]

/-- Bytes `lo .. lo + new.length` of the array replaced. -/
theorem splice_get {mem new : Bytes} {lo l : Nat} (h : lo + new.length ≤ mem.length) :
    (mem.take lo ++ new ++ mem.drop (lo + new.length))[l]? =
      if lo ≤ l ∧ l < lo + new.length then new[l - lo]? else mem[l]? := by
  by_cases h1 : l < lo
  · rw [if_neg (by omega), List.getElem?_append_left (by simp; omega),
      List.getElem?_append_left (by simp; omega), List.getElem?_take, if_pos h1]
  · by_cases h2 : l < lo + new.length
    · rw [if_pos ⟨by omega, h2⟩, List.getElem?_append_left (by simp; omega),
        List.getElem?_append_right (by simp; omega)]
      simp only [List.length_take]
      congr 1
      omega
    · rw [if_neg (by omega), List.getElem?_append_right (by simp; omega), List.getElem?_drop]
      simp only [List.length_append, List.length_take]
      congr 1
      omega

theorem splice_length {mem new : Bytes} {lo : Nat} (h : lo + new.length ≤ mem.length) :
    (mem.take lo ++ new ++ mem.drop (lo + new.length)).length = mem.length := by
  simp; omega

theorem splice_store {s s2 : ArrayString N} (f : Full s) (f2 : Full s2) {lo hi : Nat} {new : Bytes}
    (hlen : lo + new.length = hi) (hN : hi ≤ N) :
    Full (⟨s2.array.take lo ++ new ++ s2.array.drop hi, s2.size⟩ : ArrayString N) ∧
    (∀ l ≤ N, lo ≤ l → l < hi →
      byteAt (⟨s2.array.take lo ++ new ++ s2.array.drop hi, s2.size⟩ : ArrayString N) l =
      byteAt (⟨s.array.take lo ++ new ++ s.array.drop hi, s.size⟩ : ArrayString N) l) ∧
    ∀ l ≤ N, ¬ (lo ≤ l ∧ l < hi) →
      byteAt (⟨s2.array.take lo ++ new ++ s2.array.drop hi, s2.size⟩ : ArrayString N) l = byteAt s2 l := by
  have hl : ∀ s : ArrayString N, Full s → lo + new.length ≤ s.array.length := fun s fs => by
    rw [hlen, fs]; exact hN
  have hg : ∀ (s : ArrayString N) (fs : Full s) (l : Nat), (s.array.take lo ++ new ++ s.array.drop hi)[l]? =
      if lo ≤ l ∧ l < hi then new[l - lo]? else s.array[l]? := by
    intro s fs l
    have := splice_get (l := l) (hl s fs)
    rwa [hlen] at this
  refine ⟨?_, fun l hl' h1 h2 => ?_, fun l hl' hno => ?_⟩
  · show List.length _ = N
    have := splice_length (hl s2 f2)
    rw [hlen] at this
    rw [this, f2]
  · rw [byteAt_lt (by omega), byteAt_lt (by omega)]
    show (s2.array.take lo ++ new ++ s2.array.drop hi)[l]? = (s.array.take lo ++ new ++ s.array.drop hi)[l]?
    rw [hg s2 f2, hg s f, if_pos ⟨h1, h2⟩, if_pos ⟨h1, h2⟩]
  · by_cases hl2 : l < N
    · rw [byteAt_lt hl2, byteAt_lt hl2]
      simp only [hg s2 f2, if_neg hno]
    · have : l = N := by omega
      subst this
      rw [byteAt_eq, byteAt_eq]

/-- Store `new s` at `lo .. hi` of the array, where it depends on bytes that have been read. -/
theorem at_splice {t : Tag} {lo hi : Nat} {new : ArrayString N → Bytes}
    (hlen : ∀ s, Full s → lo + (new s).length = hi) (hN : hi ≤ N)
    (hnew : Full w.str → ∀ s2 : ArrayString N, Full s2 →
      (∀ l ≤ N, (marks w l).read = true → byteAt s2 l = byteAt w.str l) → new s2 = new w.str) :
    At F w (writeAt t lo hi >>= fun _ => (plain fun s =>
      (.ok (), ⟨s.array.take lo ++ new s ++ s.array.drop hi, s.size⟩) : M (World (traced R) N) ε Unit))
      fun _ _ _ => True := by
  refine at_store (fun _ => by omega) (fun f s2 f2 ha => ?_) (fun _ _ _ _ => trivial)
  have e := hnew f s2 f2 ha
  refine ⟨rfl, ?_⟩
  dsimp only
  rw [e]
  exact splice_store f f2 (hlen _ f) hN

theorem accesses_put {w : World R N} {s : ArrayString N} {q p : Tag} {lo hi lo' hi' : Nat} {X : ArrayString N → Bytes} :
    (do readAt q lo hi; writeAt p lo' hi'; put ⟨X s, s.size⟩ : M (World R N) ε Unit) { w with str := s } =
    (do readAt q lo hi; writeAt p lo' hi'; plain fun s => (.ok (), ⟨X s, s.size⟩) : M (World R N) ε Unit)
      { w with str := s } := by
  show M.bind (readAt q lo hi) _ _ = M.bind (readAt q lo hi) _ _
  rw [M.bind, M.bind]
  cases hr : (readAt q lo hi : M (World R N) ε Unit) { w with str := s } with
  | mk r0 w2 =>
    by_cases hs : Settled r0
    · obtain ⟨rfl, e1, -⟩ := touch_eq hr hs
      show M.bind (writeAt p lo' hi') _ _ = M.bind (writeAt p lo' hi') _ _
      rw [M.bind, M.bind]
      cases hr' : (writeAt p lo' hi' : M (World R N) ε Unit) w2 with
      | mk r0 w3 =>
        by_cases hs : Settled r0
        · obtain ⟨rfl, e2, -⟩ := touch_eq hr' hs
          simp only [put, plain, e2, e1]
        · cases r0 <;> simp_all [Settled]
    · cases r0 <;> simp_all [Settled]

theorem at_moveTail {p : Tag} {stop cutEnd strEnd : Nat} :
    At F w (moveTail self p stop cutEnd strEnd : M (World (traced R) N) _ _) fun _ _ _ => True := by
  unfold moveTail
  split
  · refine at_bind at_len fun n w1 _ ⟨h1, _, h2⟩ => ?_
    refine at_liftBind fun k _ => ?_
    by_cases hb : cutEnd + k ≤ N ∧ strEnd + k ≤ N
    · refine at_congr (m' := do
        readAt p cutEnd (cutEnd + k)
        writeAt p strEnd (strEnd + k)
        plain fun s => (.ok (), ⟨s.array.take strEnd ++ (s.array.drop cutEnd).take k ++ s.array.drop (strEnd + k), s.size⟩))
        (fun s f => ?_) ?_
      · have : (memCopy s.array cutEnd strEnd k : Res Error Bytes) =
            .ok (s.array.take strEnd ++ (s.array.drop cutEnd).take k ++ s.array.drop (strEnd + k)) := by
          rw [memCopy, if_pos (by rw [f]; exact hb)]
        show (M.lift (memCopy s.array cutEnd strEnd k) >>= _) _ = _
        rw [this]
        exact accesses_put (X := fun s => s.array.take strEnd ++ (s.array.drop cutEnd).take k ++ s.array.drop (strEnd + k))
      · refine at_bind (Q := fun _ s k' => ∀ l, cutEnd ≤ l → l < cutEnd + k → (k' l).read = true)
          (at_readAt fun _ _ h => h) fun _ w2 _ h => ?_
        refine at_splice (fun s fs => by simp [show s.array.length = N from fs]; omega) hb.2 fun f s2 f2 ha => ?_
        refine List.ext_getElem? fun i => ?_
        rw [List.getElem?_take, List.getElem?_take]
        split
        · rename_i hi
          rw [List.getElem?_drop, List.getElem?_drop]
          have := ha (cutEnd + i) (by omega) (h _ (by omega) (by omega))
          rwa [byteAt_lt (by omega), byteAt_lt (by omega)] at this
        · rfl
    · refine at_ub fun f => ?_
      show ((M.lift (memCopy w1.str.array cutEnd strEnd k) >>= _) w1).1 = _
      rw [memCopy, if_neg (by rw [f]; exact hb)]
      rfl
  · exact at_pure fun _ => trivial

theorem at_copyText {p : Tag} {cutStart : Nat} {str : Bytes} :
    At F w (copyText text p cutStart str : M (World (traced R) N) _ _) fun _ _ _ => True := by
  unfold copyText
  split
  · refine at_bind (Q := fun _ _ _ => True) (at_through fun _ => trivial) fun q w1 _ _ => ?_
    by_cases hb : cutStart + str.length ≤ N
    · refine at_congr (m' := do
        readAt q (N + 1) (N + 1 + str.length)
        writeAt p cutStart (cutStart + str.length)
        plain fun s => (.ok (), ⟨s.array.take cutStart ++ str ++ s.array.drop (cutStart + str.length), s.size⟩))
        (fun s f => ?_) ?_
      · have : (memCopyFrom s.array str cutStart str.length : Res Error Bytes) =
            .ok (s.array.take cutStart ++ str ++ s.array.drop (cutStart + str.length)) := by
          rw [memCopyFrom, if_pos (by rw [f]; exact ⟨Nat.le_refl _, hb⟩), List.take_length]
        show (M.lift (memCopyFrom s.array str cutStart str.length) >>= _) _ = _
        rw [this]
        exact accesses_put (X := fun s => s.array.take cutStart ++ str ++ s.array.drop (cutStart + str.length))
      · refine at_bind (Q := fun _ _ _ => True) (at_readAt fun _ _ _ => trivial) fun _ w2 _ _ => ?_
        exact at_splice (new := fun _ => str) (fun _ _ => rfl) hb fun _ _ _ _ => rfl
    · refine at_ub fun f => ?_
      show ((M.lift (memCopyFrom w1.str.array str cutStart str.length) >>= _) w1).1 = _
      rw [memCopyFrom, if_neg (by rw [f]; omega)]
      rfl
  · exact at_pure fun _ => trivial

theorem at_setSize {size : UInt8} {Q : Unit → ArrayString N → (Nat → Mark) → Prop}
    (hQ : ∀ k, Q () { w.str with size := size } k) :
    At F w (setSize self size : M (World (traced R) N) ε _) Q := by
  refine at_store (p := fun s => (.ok (), { s with size := size })) (fun _ => Nat.le_refl _)
    (fun f s2 f2 _ => ⟨rfl, f2, fun l hl h1 h2 => ?_, fun l hl hno => ?_⟩) fun _ k _ _ => hQ k
  · have : l = N := by omega
    subst this
    rw [byteAt_eq, byteAt_eq]
  · rw [byteAt_lt (by omega), byteAt_lt (by omega)]

theorem at_replaceRangeBody {r : RangeB} {str : Bytes} :
    At F w (replaceRangeBody self text r str : M (World (traced R) N) _ _) fun _ _ _ => True := by
  unfold replaceRangeBody
  refine at_bind at_rangeEnd fun stop w1 _ _ => ?_
  split
  · exact at_pure fun _ => trivial
  refine at_tryBind fun _ _ => ?_
  refine at_bind at_len fun n w2 _ _ => ?_
  refine at_tryBind fun _ _ => at_tryBind fun _ _ => ?_
  refine at_bind (at_tryM at_isCharBoundary) fun _ w3 _ _ => ?_
  refine at_bind (at_tryM at_isCharBoundary) fun _ w4 _ _ => ?_
  refine at_bind at_len fun n w5 _ _ => ?_
  refine at_liftBind fun _ _ => at_liftBind fun _ _ => at_liftBind fun _ _ => at_tryBind fun _ _ => ?_
  refine at_bind at_asMutPtr fun p w6 _ _ => ?_
  refine at_liftBind fun _ _ => at_liftBind fun _ _ => at_liftBind fun _ _ => ?_
  refine at_bind at_moveTail fun _ w7 _ _ => ?_
  refine at_bind at_copyText fun _ w8 _ _ => ?_
  refine at_bind at_len fun n w9 _ _ => ?_
  refine at_liftBind fun _ _ => at_liftBind fun _ _ => at_liftBind fun _ _ => ?_
  exact at_setSize fun _ => trivial

theorem at_replaceRangeOn {r : RangeB} {str : Bytes} :
    At F w (replaceRangeOn self arg r str : M (World (traced R) N) _ _) fun _ _ _ => True := by
  refine at_passShared fun u w1 _ _ => ?_
  refine at_bind (Q := fun _ _ _ => True) (at_through fun _ => trivial) fun _ w2 _ _ => ?_
  refine at_bind (Q := fun _ _ _ => True) (at_through fun _ => trivial) fun _ w2 _ _ => ?_
  exact at_replaceRangeBody

/-! ### The other methods -/

theorem at_tryPushStr {string : Bytes} :
    At F w (tryPushStr self arg string : M (World (traced R) N) _ _) fun _ _ _ => True := by
  refine at_passShared fun u w1 _ _ => ?_
  refine at_bind at_len fun n w2 _ _ => ?_
  exact at_mapErr (at_callMut fun _ _ _ _ => at_replaceRangeOn)

theorem at_cut {t : Tag} {slice : Bytes} {size : Nat} :
    At F w (cut t slice size : M (World (traced R) N) ε _) fun _ _ _ => True := by
  refine at_liftBind fun b _ => ?_
  refine at_bind (Q := fun _ _ _ => True) (at_through fun _ => trivial) fun _ w2 _ _ => ?_
  exact at_pure fun _ => trivial

theorem at_truncateStr {t : Tag} {slice : Bytes} {size : Nat} :
    At F w (truncateStr t slice size : M (World (traced R) N) ε _) fun _ _ _ => True := by
  refine at_passShared fun u w1 _ _ => ?_
  split
  · refine at_bind (Q := fun _ _ _ => True) (at_retagShared fun _ => trivial) fun _ w2 _ _ => ?_
    exact at_pure fun _ => trivial
  refine at_bind at_readBoundary fun _ w2 _ _ => ?_
  split
  · exact at_cut
  refine at_liftBind fun _ _ => at_bind at_readBoundary fun _ w2 _ _ => ?_
  split
  · exact at_cut
  refine at_liftBind fun _ _ => at_bind at_readBoundary fun _ w2 _ _ => ?_
  split
  · exact at_cut
  exact at_liftBind fun _ _ => at_cut

theorem at_truncated {string : Bytes} :
    At F w (truncated self text string : M (World (traced R) N) ε _) fun _ _ _ => True := by
  refine at_bind (Q := fun _ _ _ => True) (at_through fun _ => trivial) fun _ w2 _ _ => ?_
  refine at_bind at_len fun n w2 _ _ => at_liftBind fun _ _ => ?_
  refine at_bind at_truncateStr fun _ w3 _ _ => ?_
  refine at_bind (Q := fun _ _ _ => True) (at_retagShared fun _ => trivial) fun _ w2 _ _ => ?_
  exact at_pure fun _ => trivial

theorem at_pushStrTruncate {string : Bytes} :
    At F w (pushStrTruncate self arg string : M (World (traced R) N) ε _) fun _ _ _ => True := by
  refine at_passShared fun u w1 _ _ => ?_
  refine at_bind (Q := fun _ _ _ => True) (at_retagTwoPhase fun _ => trivial) fun _ w2 _ _ => ?_
  refine at_bind at_truncated fun _ w3 _ _ => ?_
  refine at_bind (at_attempt (at_passUnique fun _ _ _ _ => at_tryPushStr)) fun _ w4 _ _ => ?_
  exact at_pure fun _ => trivial

theorem at_encode {buf : Tag} {ch : Char} :
    At False w (encode buf ch : M (World (traced R) N) ε _) fun _ _ _ => True := by
  refine at_bind (Q := fun _ _ _ => True) (m := writeAt _ _ _) ?_ fun _ w1 _ _ => at_retagShared fun _ => trivial
  refine at_congr (m' := writeAt buf (N + 1) (N + 1 + (Str.encodeUtf8 ch).length) >>= fun _ =>
    plain fun s => (.ok (), s)) (fun s f => ?_) ?_
  · show _ = M.bind _ _ _
    rw [M.bind]
    generalize (writeAt buf (N + 1) (N + 1 + (Str.encodeUtf8 ch).length) : M (World (traced R) N) ε Unit) _ = x
    rcases x with ⟨_ | _ | _ | _ | _, _⟩ <;> rfl
  · exact at_store nofun (fun f s2 f2 _ => ⟨rfl, f2, fun l hl h1 h2 => by omega, fun l hl hno => rfl⟩)
      fun _ _ _ _ => trivial

theorem at_tryPush {ch : Char} : At F w (tryPush self ch : M (World (traced R) N) _ _) fun _ _ _ => True := by
  refine at_withBuf fun v _ => ?_
  refine at_bind (Q := fun _ _ _ => True) (at_retagTwoPhase fun _ => trivial) fun _ w2 _ _ => ?_
  refine at_bind at_encode fun _ w3 _ _ => ?_
  exact at_passUnique fun _ _ _ _ => at_tryPushStr

theorem at_truncate {size : Nat} :
    At F w (truncate self size : M (World (traced R) N) _ _) fun _ _ _ => True := by
  refine at_bind at_len fun n w1 _ _ => ?_
  refine at_bind (at_attempt at_isCharBoundary) fun r w2 _ _ => ?_
  refine at_bind (Q := fun _ _ _ => True) (at_retagUnique fun _ => trivial) fun _ w3 _ _ => ?_
  refine at_passUnique fun _ w4 _ _ => ?_
  split
  · exact at_passUnique fun _ w5 _ _ => at_setSize fun _ => trivial
  · exact at_lift nofun

theorem at_pop : At F w (pop self : M (World (traced R) N) ε _) fun _ _ _ => True := by
  refine at_bind at_look fun n w1 _ ⟨_, _, h1⟩ => ?_
  refine at_text h1 fun b _ => ?_
  refine at_bind (Q := fun _ _ _ => True) (at_retagUnique fun _ => trivial) fun _ w3 _ _ => ?_
  refine at_passUnique fun _ w4 _ _ => ?_
  split
  · exact at_pure fun _ => trivial
  refine at_passUnique fun _ w5 _ _ => ?_
  refine at_bind (Q := fun _ s k => (k N).read = true)
    (at_readAt fun k _ hk => hk N (Nat.le_refl _) (by omega)) fun _ w6 _ h4 => ?_
  refine at_get (fun _ s2 _ ha => by rw [byteAt_size (ha N (Nat.le_refl _) h4)]) ?_
  refine at_liftBind fun _ _ => ?_
  refine at_bind (Q := fun _ _ _ => True) (at_setSize fun _ => trivial) fun _ w7 _ _ => ?_
  exact at_pure fun _ => trivial

theorem at_trim : At F w (trim self : M (World (traced R) N) ε _) fun _ _ _ => True := by
  refine at_bind at_len fun n w1 _ _ => ?_
  refine at_bind at_look fun n w2 _ ⟨_, _, h1⟩ => ?_
  refine at_text h1 fun b _ => ?_
  refine at_bind at_len fun n w3 _ _ => ?_
  refine at_bind at_look fun _ w4 _ _ => ?_
  split
  · exact at_setSize fun _ => trivial
  refine at_bind (at_attempt (at_callMut fun _ _ _ _ => at_replaceRangeOn)) fun _ w5 _ _ => ?_
  refine at_bind (at_attempt (at_callMut fun _ _ _ _ => at_replaceRangeOn)) fun _ w5 _ _ => ?_
  exact at_pure fun _ => trivial

theorem at_removeScan (stop : Nat) : ∀ {w : World (traced R) N},
    At F w (removeScan self stop : M (World (traced R) N) _ _) fun _ _ _ => True := by
  intro w
  unfold removeScan
  refine at_bind at_selfBoundary fun _ w1 _ ⟨_, h1⟩ => ?_
  refine at_text h1 fun b _ => ?_
  split
  · exact at_pure fun _ => trivial
  split
  · exact at_removeScan (stop + 1)
  · exact at_liftBind fun _ _ => at_bind at_selfBoundary fun _ _ _ _ => at_pure fun _ => trivial
termination_by usizeMax - stop

theorem at_remove {idx : Nat} : At F w (remove self idx : M (World (traced R) N) _ _) fun _ _ _ => True := by
  refine at_bind at_len fun n w1 _ _ => at_tryBind fun _ _ => ?_
  refine at_bind (at_tryM at_isCharBoundary) fun _ w2 _ _ => ?_
  refine at_bind at_len fun n w3 _ _ => at_liftBind fun _ _ => ?_
  refine at_bind (at_removeScan _) fun _ w4 _ _ => ?_
  refine at_bind at_look fun _ w5 _ ⟨_, _, h1⟩ => at_text h1 fun b _ => ?_
  split
  · exact at_lift nofun
  split
  · exact at_lift nofun
  refine at_liftBind fun _ _ => ?_
  refine at_bind (at_callMut fun _ _ _ _ => at_replaceRangeOn) fun _ w6 _ _ => ?_
  exact at_pure fun _ => trivial

theorem at_tryInsertStr {idx : Nat} {string : Bytes} :
    At F w (tryInsertStr self arg idx string : M (World (traced R) N) _ _) fun _ _ _ => True := by
  refine at_passShared fun u w1 _ _ => ?_
  refine at_bind at_len fun n w2 _ _ => at_tryBind fun _ _ => ?_
  exact at_callMut fun _ _ _ _ => at_replaceRangeOn

theorem at_tryInsert {idx : Nat} {ch : Char} :
    At F w (tryInsert self idx ch : M (World (traced R) N) _ _) fun _ _ _ => True := by
  refine at_withBuf fun v _ => ?_
  refine at_bind (Q := fun _ _ _ => True) (at_retagTwoPhase fun _ => trivial) fun _ w2 _ _ => ?_
  refine at_bind at_encode fun _ w3 _ _ => ?_
  exact at_passUnique fun _ _ _ _ => at_tryInsertStr

theorem at_insertStrTruncate {idx : Nat} {string : Bytes} :
    At F w (insertStrTruncate self arg idx string : M (World (traced R) N) _ _) fun _ _ _ => True := by
  refine at_passShared fun u w1 _ _ => ?_
  refine at_bind (Q := fun _ _ _ => True) (at_retagTwoPhase fun _ => trivial) fun _ w2 _ _ => ?_
  refine at_bind at_truncated fun _ w3 _ _ => ?_
  exact at_passUnique fun _ _ _ _ => at_tryInsertStr

theorem full_new : Full (ArrayString.new : ArrayString N) := by simp [Full, ArrayString.new]

theorem at_withNew {lo hi : Nat} {body : Tag → M (World (traced R) N) ε α}
    (h : ∀ v, At True v (body w.next) fun _ _ _ => True) :
    At F w (withNew lo hi body) fun r s k => s = w.str ∧ Full r.2 ∧
      ∀ l, (marks w l).read = true → (k l).read = true :=
  at_withLocal full_new fun v _ => h v

theorem at_tryFromStr {lo hi : Nat} {string : Bytes} :
    At F w (tryFromStr arg lo hi string : M (World (traced R) N) _ _) fun t s _ => s = w.str ∧ Full t := by
  refine at_passShared fun u w1 h1 _ => ?_
  refine at_bind (at_withNew fun v => at_callMut fun _ _ _ _ => at_tryPushStr) fun r w2 _ ⟨h2, h3, _⟩ => ?_
  exact at_pure fun _ => ⟨h2.trans h1, h3⟩

theorem at_retainLoop {t out : Tag} {φ : Type} {f : ArrayString.Pred φ} : ∀ {cs : List Char} {q : φ} {pos : Nat}
    {w : World (traced R) N}, At F w (retainLoop t out f q pos cs : M (World (traced R) N) ε _) fun _ _ _ => True
  | [], _, _, _ => at_pure fun _ => trivial
  | c :: cs, q, pos, w => by
    unfold retainLoop
    refine at_bind (Q := fun _ _ _ => True) (at_readAt fun _ _ _ => trivial) fun _ w1 _ _ => ?_
    split
    · exact at_lift nofun
    · exact at_retainLoop
    · refine at_bind (at_attempt (at_callMut fun _ _ _ _ => at_tryPush)) fun r w2 _ _ => ?_
      split
      · exact at_retainLoop
      · exact at_pure fun _ => trivial

theorem at_retained {φ : Type} {f : ArrayString.Pred φ} {q : φ} :
    At F w (retained self f q : M (World (traced R) N) ε _) fun r _ _ => Full r.2 := by
  refine at_bind at_asStr ?_
  rintro ⟨a, n⟩ w1 _ ⟨_, _, h1⟩
  refine at_text h1 fun b _ => ?_
  refine at_bind (Q := fun _ _ _ => True) (at_through fun _ => trivial) fun _ w2 _ _ => ?_
  exact at_mono (at_withNew fun v => at_retainLoop) fun _ _ _ h => h.2.1

/-- A string is stored as a whole. -/
theorem at_assign {t : Tag} {out : ArrayString N} {a : α} (ho : Full out) :
    At F w (do writeAt t 0 (N + 1); put out; pure a : M (World (traced R) N) ε α) fun _ _ _ => True :=
  at_store (p := fun _ => (.ok a, out)) (fun _ => Nat.le_refl _)
    (fun _ _ _ _ => ⟨rfl, ho, fun _ _ _ _ => rfl, fun l hl hno => by omega⟩) fun _ _ _ _ => trivial

theorem at_retain {φ : Type} {f : ArrayString.Pred φ} {q : φ} :
    At F w (retain self f q : M (World (traced R) N) ε _) fun _ _ _ => True := by
  refine at_bind at_retained ?_
  rintro ⟨q, out⟩ w1 _ h
  exact at_assign h

theorem at_drained {start stop : Nat} {slice : Bytes} :
    At F w (drained self start stop slice : M (World (traced R) N) _ _) fun t _ _ => Full t := by
  refine at_bind at_asStr fun _ w1 _ _ => ?_
  refine at_bind (Q := fun _ _ _ => True) (at_through fun _ => trivial) fun _ w2 _ _ => ?_
  exact at_mono at_tryFromStr fun _ _ _ h => h.2

theorem at_drain {r : RangeB} :
    At F w (drain self r : M (World (traced R) N) _ _) fun d _ _ => Full d.inner := by
  refine at_bind at_rangeEnd fun stop w1 _ _ => at_tryBind fun _ _ => ?_
  refine at_bind at_len fun n w2 _ _ => at_tryBind fun _ _ => ?_
  refine at_bind (at_tryM at_isCharBoundary) fun _ w3 _ _ => ?_
  refine at_bind (at_tryM at_isCharBoundary) fun _ w4 _ ⟨_, h1⟩ => ?_
  refine at_bind at_len fun n w5 c5 ⟨h2, _, _⟩ => at_liftBind fun _ _ => ?_
  refine at_text (by rw [h2]; exact h1.mono c5) fun b _ => ?_
  refine at_bind at_selfBoundary fun _ w6 _ _ => at_liftBind fun _ _ => ?_
  refine at_bind at_selfBoundary fun _ w7 _ _ => at_liftBind fun _ _ => at_liftBind fun _ _ => ?_
  refine at_bind (at_tryM at_drained) fun d w8 _ hd => ?_
  refine at_bind (at_callMut fun _ _ _ _ => at_replaceRangeOn) fun _ w9 _ _ => ?_
  exact at_pure fun _ => hd

theorem at_splitOff {i : Nat} :
    At F w (splitOff self i : M (World (traced R) N) _ _) fun t _ _ => Full t := by
  refine at_bind (at_callMut fun _ _ _ _ => at_drain) fun d w1 _ h => ?_
  exact at_pure fun _ => h

theorem at_writeStr {slice : Bytes} :
    At F w (writeStr self arg slice : M (World (traced R) N) _ _) fun _ _ _ => True :=
  at_passShared fun _ _ _ _ => at_mapErr (at_callMut fun _ _ _ _ => at_tryPushStr)

/-! ### Constructors -/

theorem at_feed {body : α → M (World (traced R) N) ε Bool}
    (h : ∀ a w, At F w (body a) fun _ _ _ => True) : ∀ {l : Script α} {w : World (traced R) N},
    At F w (feed body l) fun _ _ _ => True
  | [], _ => at_pure fun _ => trivial
  | none :: _, _ => at_lift nofun
  | some a :: l, w => by
    unfold feed
    refine at_bind (h a w) fun b w1 _ _ => ?_
    split
    · exact at_feed h
    · exact at_pure fun _ => trivial

theorem at_made {lo hi : Nat} {body : Tag → M (World (traced R) N) ε α}
    (h : ∀ t v, At True v (body t) fun _ _ _ => True) :
    At F w (do let r ← withNew lo hi body; pure r.2 : M (World (traced R) N) ε _) fun t s _ => s = w.str ∧ Full t :=
  at_bind (at_withNew fun v => h _ v) fun _ _ _ ⟨h1, h2, _⟩ => at_pure fun _ => ⟨h1, h2⟩

theorem at_fromStrTruncate {string : Bytes} :
    At F w (fromStrTruncate arg string : M (World (traced R) N) ε _) fun t s _ => s = w.str ∧ Full t :=
  at_passShared fun _ _ h1 _ => at_mono (at_made fun _ _ => at_callMut fun _ _ _ _ => at_pushStrTruncate)
    fun _ _ _ h => ⟨h.1.trans h1, h.2⟩

theorem at_tryFromIterator {l : Script Bytes} :
    At F w (tryFromIterator arg l : M (World (traced R) N) _ _) fun t s _ => s = w.str ∧ Full t :=
  at_made fun _ _ => at_feed fun _ _ =>
    at_bind (at_callMut fun _ _ _ _ => at_tryPushStr) fun _ _ _ _ => at_pure fun _ => trivial

theorem at_fromIteratorTruncate {l : Script ArrayString.AsRefTwice} :
    At F w (fromIteratorTruncate arg l : M (World (traced R) N) ε _) fun t s _ => s = w.str ∧ Full t := by
  refine at_made fun out v => at_feed fun s v => ?_
  refine at_bind (Q := fun _ _ _ => True) (at_retagTwoPhase fun _ => trivial) fun _ w2 _ _ => ?_
  refine at_bind (Q := fun _ _ _ => True) (at_through fun _ => trivial) fun _ w2 _ _ => ?_
  refine at_bind (at_attempt (at_passUnique fun _ _ _ _ => at_tryPushStr)) fun r w3 _ _ => ?_
  split
  · exact at_pure fun _ => trivial
  · exact at_bind (at_callMut fun _ _ _ _ => at_pushStrTruncate) fun _ _ _ _ => at_pure fun _ => trivial

theorem at_tryFromChars {l : Script Char} :
    At F w (tryFromChars l : M (World (traced R) N) _ _) fun t s _ => s = w.str ∧ Full t :=
  at_made fun _ _ => at_feed fun _ _ =>
    at_bind (at_callMut fun _ _ _ _ => at_tryPush) fun _ _ _ _ => at_pure fun _ => trivial

theorem at_pushOrBreak {out : Tag} {c : Char} :
    At F w (pushOrBreak out c : M (World (traced R) N) ε _) fun _ _ _ => True := by
  refine at_bind (at_attempt (at_callMut fun _ _ _ _ => at_tryPush)) fun r w3 _ _ => ?_
  split
  · exact at_pure fun _ => trivial
  · exact at_pure fun _ => trivial

theorem at_fromCharsTruncate {l : Script Char} :
    At F w (fromCharsTruncate l : M (World (traced R) N) ε _) fun t s _ => s = w.str ∧ Full t :=
  at_made fun _ _ => at_feed fun _ _ => at_pushOrBreak

theorem at_tryFromUtf16 {l : List UInt16} :
    At F w (tryFromUtf16 l : M (World (traced R) N) _ _) fun t s _ => s = w.str ∧ Full t := by
  refine at_made fun _ _ => at_feed fun c _ => ?_
  split
  · exact at_lift nofun
  · exact at_bind (at_tryM (at_callMut fun _ _ _ _ => at_tryPush)) fun _ _ _ _ => at_pure fun _ => trivial

theorem at_fromUtf16Truncate {l : List UInt16} :
    At F w (fromUtf16Truncate l : M (World (traced R) N) _ _) fun t s _ => s = w.str ∧ Full t := by
  refine at_made fun _ _ => at_feed fun c _ => ?_
  split
  · exact at_lift nofun
  · exact at_pushOrBreak

theorem at_fromUtf16LossyTruncate {l : List UInt16} :
    At F w (fromUtf16LossyTruncate l : M (World (traced R) N) ε _) fun t s _ => s = w.str ∧ Full t :=
  at_made fun _ _ => at_feed fun _ _ => at_pushOrBreak

/-! ### Traits -/

theorem at_extend {make : M (World (traced R) N) ε (ArrayString N)}
    (h : ∀ w, ∃ Q, At F w make Q) : At F w (extend self make) fun _ _ _ => True := by
  refine at_bind (Q := fun _ _ _ => True) (at_retagTwoPhase fun _ => trivial) fun _ w1 _ _ => ?_
  obtain ⟨Q, hQ⟩ := h w1
  refine at_bind hQ fun t w2 _ _ => at_liftBind fun b _ => ?_
  exact at_withBuf fun _ _ => at_passUnique fun _ _ _ _ => at_pushStrTruncate

theorem byteAt_ext {s s2 : ArrayString N} (f : Full s) (f2 : Full s2) (h : ∀ l ≤ N, byteAt s2 l = byteAt s l) :
    s2 = s := by
  have h1 := byteAt_size (h N (Nat.le_refl _))
  have h2 := byteAt_take (n := N) f f2 fun l hl _ => h l hl
  rw [List.take_of_length_le (Nat.le_of_eq f2), List.take_of_length_le (Nat.le_of_eq f)] at h2
  cases s; cases s2
  simp_all

theorem at_add {other : Bytes} :
    At F w (add self arg other : M (World (traced R) N) ε _) fun t _ _ => Full t := by
  refine at_bind (m := readAt self 0 (N + 1)) (Q := fun _ s k => s = w.str ∧ ∀ l ≤ N, (k l).read = true)
    (at_readAt fun k _ h => ⟨rfl, fun l hl => h l (Nat.zero_le _) (by omega)⟩) fun _ w1 c ⟨h1, h2⟩ => ?_
  refine at_get (fun f s2 f2 ha => by rw [byteAt_ext f f2 fun l hl => ha l hl (h2 l hl)]) ?_
  refine at_passShared fun u w2 _ _ => ?_
  refine at_bind (at_withLocal c.full fun v _ => at_callMut fun _ _ _ _ => at_pushStrTruncate)
    fun r w3 _ ⟨_, h3, _⟩ => ?_
  exact at_pure fun _ => h3

theorem at_writeAll : ∀ {l : List Bytes} {w : World (traced R) N},
    At F w (writeAll self arg l : M (World (traced R) N) _ _) fun _ _ _ => True
  | [], _ => at_pure fun _ => trivial
  | s :: l, w => by
    unfold writeAll
    dsimp only
    split
    · exact at_writeAll
    · exact at_bind (at_callMut fun _ _ _ _ => at_writeStr) fun _ _ _ _ => at_writeAll

theorem at_reading : At F w (reading self : M (World (traced R) N) ε _) fun _ s k => s = w.str ∧ Seen s k := by
  refine at_callShared fun u w1 h1 _ => ?_
  refine at_bind at_asStr ?_
  rintro ⟨a, n⟩ w2 _ ⟨h3, h4, h5⟩
  refine at_passShared fun v w3 h6 h7 => at_readAt fun k hm _ => ⟨by rw [h6, h3, h1], ?_⟩
  rw [h6]
  exact ⟨hm _ (by rw [h7]; exact h5.1), fun l hl => hm l (by rw [h7]; exact h5.2 l hl)⟩

theorem at_indexRef {i : IdxU8} : At F w (indexRef self i : M (World (traced R) N) ε _) fun _ _ _ => True := by
  refine at_bind (Q := fun _ _ _ => True) (at_callShared fun u w1 h1 _ => ?_) fun ⟨a, x, y, t⟩ w2 _ _ => ?_
  · refine at_bind at_asStr ?_
    rintro ⟨a, n⟩ w2 _ ⟨h3, h4, h5⟩
    refine at_text h5 fun b _ => ?_
    refine at_bind (Q := fun _ _ _ => True) (at_passShared fun v w3 _ _ => ?_) fun ⟨a, x, y, t⟩ w4 _ _ => ?_
    · split
      · exact at_lift nofun
      · refine at_bind at_readBoundary fun _ _ _ _ => at_bind at_readBoundary fun _ _ _ _ => at_liftBind fun _ _ => ?_
        exact at_bind (Q := fun _ _ _ => True) (at_retagShared fun _ => trivial) fun _ _ _ _ => at_pure fun _ => trivial
    · exact at_bind (Q := fun _ _ _ => True) (at_retagShared fun _ => trivial) fun _ _ _ _ => at_pure fun _ => trivial
  · exact at_bind (Q := fun _ _ _ => True) (at_retagShared fun _ => trivial) fun _ _ _ _ => at_pure fun _ => trivial

theorem at_index {i : IdxU8} : At F w (index self i : M (World (traced R) N) ε _) fun _ _ _ => True :=
  at_bind at_indexRef fun ⟨_, _, _, _⟩ _ _ _ =>
    at_bind (Q := fun _ _ _ => True) (at_readAt fun _ _ _ => trivial) fun _ _ _ _ => at_pure fun _ => trivial

theorem at_asMutOn : At F w (asMutOn self : M (World (traced R) N) ε _) fun a s k =>
    s = w.str ∧ a.2 = s.len ∧ Seen s k := by
  refine at_bind at_len fun n w1 _ ⟨h1, h2, h3⟩ => ?_
  refine at_bind (Q := fun _ s k => s = w1.str ∧ k = marks w1) (at_retagUnique fun _ => ⟨rfl, rfl⟩) fun a w2 _ h => ?_
  refine at_bind (Q := fun _ s k => s = w1.str ∧ k = marks w1) (at_throughMut fun _ => h) fun a w2 _ h => ?_
  refine at_bind (Q := fun _ s k => s = w1.str ∧ k = marks w1) (at_throughRaw fun _ => h) fun a w2 _ h => ?_
  refine at_bind (Q := fun _ s k => s = w1.str ∧ k = marks w1) (at_retagShared fun _ => h) fun a w2 _ h => ?_
  refine at_bind (Q := fun _ s k => s = w1.str ∧ Seen s k) (at_passShared fun v w3 h6 h7 =>
    at_readAt fun k hm hk => ⟨h6.trans h.1, ?_⟩) fun _ w4 _ h8 => ?_
  · refine ⟨hm N (by rw [h7, h.2]; exact h3), fun l hl => hk l (Nat.zero_le _) ?_⟩
    rw [h2, ← h.1, ← h6]
    exact hl
  refine at_bind (Q := fun _ s k => s = w1.str ∧ Seen s k) (at_throughRaw fun _ => h8) fun a w2 _ h => ?_
  exact at_pure fun _ => ⟨h.1.trans h1, by rw [h.1]; exact h2, h.2⟩

theorem at_asMutStr : At F w (asMutStr self : M (World (traced R) N) ε _) fun a s k =>
    s = w.str ∧ a.2 = s.len ∧ Seen s k := by
  refine at_bind (Q := fun _ s k => s = w.str ∧ k = marks w) (at_retagTwoPhase fun _ => ⟨rfl, rfl⟩) fun u w1 _ h => ?_
  refine at_passRef (Q := fun n s k => s = w.str ∧ n = s.len ∧ Seen s k) fun v w2 h1 _ => ?_
  refine at_bind (Q := fun _ s k => s = w.str ∧ k = marks w2) (at_retagTwoPhase fun _ => ⟨h1.trans h.1, rfl⟩)
    fun u w3 _ h => ?_
  refine at_passRef (Q := fun n s k => s = w.str ∧ n = s.len ∧ Seen s k) fun v w4 h4 _ => ?_
  exact at_mono at_asMutOn fun _ _ _ ⟨a1, a2, a3⟩ => ⟨a1.trans (h4.trans h.1), a2, a3⟩

/-- The text that `as_mut` hands out. -/
def mutText (s : ArrayString N) : Res ε Bytes := do
  debugAssert (s.len ≤ N)
  let b ← getUncheckedTo s.array s.len
  debugAssert (Str.validUtf8 b)
  Str.fromUtf8Unchecked b

theorem mutText_agree {s s2 : ArrayString N} (f : Full s) (f2 : Full s2) (h : s2.size = s.size)
    (ht : s2.array.take s.len = s.array.take s.len) : (mutText s2 : Res ε Bytes) = mutText s := by
  have hl : s2.len = s.len := by simp [ArrayString.len, h]
  have e : s2.array.length = s.array.length := by rw [f, f2]
  simp only [mutText, getUncheckedTo, hl, ht, e]

theorem mutText_ok {s : ArrayString N} {b : Bytes} (h : (mutText s : Res ε Bytes) = .ok b) :
    b = s.array.take s.len ∧ s.len ≤ s.array.length := by
  unfold mutText debugAssert getUncheckedTo Str.fromUtf8Unchecked at h
  by_cases h1 : s.len ≤ N <;> by_cases h2 : s.len ≤ s.array.length <;>
    by_cases h3 : Str.validUtf8 (s.array.take s.len) <;> cases hp : profile.debugAssertions <;>
    simp_all [bind, Res.bind]

theorem asMutStr_eq {s : ArrayString N} (edit : Bytes → Bytes) :
    (ArrayString.asMutStr edit : M (ArrayString N) ε Unit) s =
      match (mutText s : Res ε Bytes) with
      | .ok b =>
        if (edit b).length = b.length ∧ Str.validUtf8 (edit b) then (.ok (), ⟨edit b ++ s.array.drop s.len, s.size⟩)
        else (.ub, s)
      | .err e => (.err e, s)
      | .panic => (.panic, s)
      | .ub => (.ub, s)
      | .diverge => (.diverge, s) := by
  unfold ArrayString.asMutStr ArrayString.asMut mutText debugAssert getUncheckedTo Str.fromUtf8Unchecked
  by_cases h1 : s.len ≤ N <;> by_cases h2 : s.len ≤ s.array.length <;>
    by_cases h3 : Str.validUtf8 (s.array.take s.len) <;> cases hp : profile.debugAssertions <;>
    simp [bind, Res.bind, M.bind, M.self, M.lift, h1, h2, h3]
  all_goals
    by_cases h4 : (edit (s.array.take s.len)).length = s.len ∧ Str.validUtf8 (edit (s.array.take s.len))
    · simp only [if_pos h4]
      try rfl
    · simp only [if_neg h4]

theorem indexMut_eq {s : ArrayString N} (i : IdxU8) (edit : Bytes → Bytes) :
    (ArrayString.indexMut i edit : M (ArrayString N) ε Unit) s =
      match (mutText s : Res ε Bytes) with
      | .ok b =>
        match i.toUsize.resolve b.length with
        | none => (.panic, s)
        | some (x, y) =>
          match (Str.index b x y : Res ε Bytes) with
          | .ok t =>
            if (edit t).length = t.length ∧ Str.validUtf8 (edit t) then
              (.ok (), ⟨s.array.take x ++ edit t ++ s.array.drop y, s.size⟩)
            else (.ub, s)
          | .err e => (.err e, s)
          | .panic => (.panic, s)
          | .ub => (.ub, s)
          | .diverge => (.diverge, s)
      | .err e => (.err e, s)
      | .panic => (.panic, s)
      | .ub => (.ub, s)
      | .diverge => (.diverge, s) := by
  have e : (ArrayString.indexMut i edit : M (ArrayString N) ε Unit) s = (M.lift (mutText s) >>= fun b =>
      match i.toUsize.resolve b.length with
      | none => M.lift .panic
      | some (x, y) => do
        let t ← M.lift (Str.index b x y)
        M.lift (if (edit t).length = t.length ∧ Str.validUtf8 (edit t) then .ok () else .ub)
        M.setSelf { s with array := s.array.take x ++ edit t ++ s.array.drop y }) s := by
    unfold ArrayString.indexMut mutText debugAssert getUncheckedTo Str.fromUtf8Unchecked
    by_cases h1 : s.len ≤ N <;> by_cases h2 : s.len ≤ s.array.length <;>
      by_cases h3 : Str.validUtf8 (s.array.take s.len) <;> cases hp : profile.debugAssertions <;>
      simp [bind, Res.bind, M.bind, M.self, M.lift, h1, h2, h3]
    all_goals cases IdxUsize.resolve s.len i.toUsize <;> rfl
  rw [e]
  cases (mutText s : Res ε Bytes) with
  | err e => rfl
  | panic => rfl
  | ub => rfl
  | diverge => rfl
  | ok b =>
    show (match i.toUsize.resolve b.length with
      | none => M.lift .panic
      | some (x, y) => _ : M (ArrayString N) ε Unit) s = _
    dsimp only
    generalize i.toUsize.resolve b.length = o
    cases o with
    | none => rfl
    | some p =>
      obtain ⟨x, y⟩ := p
      simp only [bind, M.bind, M.lift]
      generalize (Str.index b x y : Res ε Bytes) = o
      cases o with
      | err e => rfl
      | panic => rfl
      | ub => rfl
      | diverge => rfl
      | ok t =>
        dsimp only
        by_cases h4 : (edit t).length = t.length ∧ Str.validUtf8 (edit t)
        · rw [if_pos h4, if_pos h4]; rfl
        · rw [if_neg h4, if_neg h4]

theorem at_editText {edit : Bytes → Bytes} :
    At False w (editText self edit : M (World (traced R) N) ε _) fun _ _ _ => True := by
  refine at_bind at_asMutStr ?_
  rintro ⟨u, n⟩ w1 _ ⟨_, h2, h3⟩
  refine at_bind (Q := fun _ s k => s.len = n ∧ Seen s k)
    (at_readAt fun k hm _ => ⟨h2.symm, hm _ h3.1, fun l hl => hm l (h3.2 l hl)⟩) fun _ w2 _ ⟨h4, h5⟩ => ?_
  refine at_store nofun (fun f s2 f2 ha => ?_) fun _ _ _ _ => trivial
  obtain ⟨a1, a2⟩ := h5.agree f f2 ha
  have hsame : ∀ l ≤ N, 0 ≤ l → l < n → byteAt s2 l = byteAt w2.str l := fun l hl _ h =>
    ha l hl (h5.2 l (by rw [h4]; exact h))
  rw [asMutStr_eq, asMutStr_eq, mutText_agree f f2 a1 a2]
  cases hb : (mutText w2.str : Res ε Bytes) with
  | err e => exact ⟨rfl, f2, hsame, fun _ _ _ => rfl⟩
  | panic => exact ⟨rfl, f2, hsame, fun _ _ _ => rfl⟩
  | ub => exact ⟨rfl, f2, hsame, fun _ _ _ => rfl⟩
  | diverge => exact ⟨rfl, f2, hsame, fun _ _ _ => rfl⟩
  | ok b =>
    obtain ⟨b1, b3⟩ := mutText_ok hb
    have b2 : w2.str.array.length = N := f
    dsimp only
    by_cases hc : (edit b).length = b.length ∧ Str.validUtf8 (edit b)
    · rw [if_pos hc, if_pos hc]
      have hl : s2.len = w2.str.len := by simp [ArrayString.len, a1]
      have := splice_store f f2 (lo := 0) (hi := n) (new := edit b)
        (by rw [hc.1, b1, List.length_take, h4]; rw [h4] at b3; omega) (by omega)
      rw [List.take_zero, List.take_zero, List.nil_append] at this
      rw [hl, h4]
      exact ⟨rfl, this⟩
    · rw [if_neg hc, if_neg hc]
      exact ⟨rfl, f2, hsame, fun _ _ _ => rfl⟩

theorem index_len {b t : Bytes} {x y : Nat} (h : (Str.index b x y : Res ε Bytes) = .ok t) :
    x ≤ y ∧ y ≤ b.length ∧ t.length = y - x := by
  unfold Str.index Str.get? at h
  split at h
  · rename_i t' ht
    split at ht
    · rename_i hc
      cases h
      cases ht
      have hy : y ≤ b.length := by
        have := hc.2.2
        unfold Str.isCharBoundary at this
        split at this
        · omega
        · split at this
          · simp at this; omega
          · omega
      exact ⟨hc.1, hy, by simp; omega⟩
    · cases ht
  · cases h

theorem asStr_mutText {s : ArrayString N} {b : Bytes} (h : (s.asStr : Res ε Bytes) = .ok b) :
    (mutText s : Res ε Bytes) = .ok b := by
  unfold ArrayString.asStr ArrayString.asRefStr ArrayString.asRefBytes debugAssert getUncheckedTo
    Str.fromUtf8Unchecked at h
  unfold mutText debugAssert getUncheckedTo Str.fromUtf8Unchecked
  by_cases h1 : s.len ≤ N <;> by_cases h2 : s.len ≤ s.array.length <;>
    by_cases h3 : Str.validUtf8 (s.array.take s.len) <;> cases hp : profile.debugAssertions <;>
    simp_all [bind, Res.bind]

theorem at_indexMutOn {i : IdxU8} :
    At F w (indexMutOn self i : M (World (traced R) N) ε _) fun p s k => Seen s k ∧
      ∃ b t, (mutText s : Res ε Bytes) = .ok b ∧ i.toUsize.resolve b.length = some (p.2.1, p.2.2) ∧
        (Str.index b p.2.1 p.2.2 : Res ε Bytes) = .ok t := by
  refine at_bind at_asMutStr ?_
  rintro ⟨u, n⟩ w1 _ ⟨_, h2, h3⟩
  dsimp only
  refine at_text h3 fun b hb => ?_
  split
  · exact at_lift nofun
  rename_i x y hxy
  refine at_bind at_readBoundary fun _ w2 c2 h4 => at_bind at_readBoundary fun _ w3 c3 h5 => ?_
  have h4 := h5.trans h4
  have hs : Seen w3.str (marks w3) := by
    rw [h4]
    exact (h3.mono c2).mono c3
  rw [← h4] at hb
  refine at_liftBind fun t ht => ?_
  refine at_bind (Q := fun _ s k => s = w3.str ∧ k = marks w3) (at_throughRaw fun _ => ⟨rfl, rfl⟩)
    fun v w4 _ ⟨h6, h7⟩ => at_pure fun _ => ?_
  rw [h6, h7]
  refine ⟨hs, b, t, asStr_mutText hb, ?_, ht⟩
  rw [(asStr_ok hb).1, ← hxy, h4]
  exact congrArg (fun n => i.toUsize.resolve n) h2.symm

theorem at_editSlice {i : IdxU8} {edit : Bytes → Bytes} :
    At False w (editSlice self i edit : M (World (traced R) N) ε _) fun _ _ _ => True := by
  refine at_bind (at_callMut fun _ _ _ _ => at_indexMutOn) ?_
  rintro ⟨v, x, y⟩ w1 _ ⟨h1, b, t, h2, h3, h4⟩
  refine at_bind (Q := fun _ s k => s = w1.str ∧ k = marks w1) (at_retagUnique fun _ => ⟨rfl, rfl⟩)
    fun v w2 _ ⟨h5, h6⟩ => ?_
  refine at_bind (Q := fun _ s k => s = w1.str ∧ Seen s k) (at_readAt fun k hm _ => ⟨h5, ?_⟩)
    fun _ w3 _ ⟨h7, h8⟩ => ?_
  · rw [h5]
    exact ⟨hm _ (by rw [h6]; exact h1.1), fun l hl => hm l (by rw [h6]; exact h1.2 l hl)⟩
  refine at_store nofun (fun f s2 f2 ha => ?_) fun _ _ _ _ => trivial
  obtain ⟨a1, a2⟩ := h8.agree f f2 ha
  rw [indexMut_eq, indexMut_eq, mutText_agree f f2 a1 a2, h7]
  simp only [h2, h3, h4]
  obtain ⟨i1, i2, i3⟩ : x ≤ y ∧ y ≤ b.length ∧ t.length = y - x := index_len h4
  obtain ⟨b1, b2⟩ := mutText_ok h2
  have hy : y ≤ w1.str.len := by
    rw [b1, List.length_take] at i2
    omega
  by_cases hc : (edit t).length = t.length ∧ Str.validUtf8 (edit t)
  · rw [if_pos hc, if_pos hc]
    rw [h7] at f
    have b3 : w1.str.array.length = N := f
    exact ⟨rfl, splice_store f f2 (by rw [hc.1, i3]; omega) (by omega)⟩
  · rw [if_neg hc, if_neg hc]
    refine ⟨rfl, f2, fun l hl _ h => ?_, fun _ _ _ => rfl⟩
    rw [← h7]
    exact ha l hl (h8.2 l (by rw [h7]; omega))

/-! ### Calls -/

theorem at_drainEnds {d : Tag} : ∀ {es : List End} {w : World (traced R) N},
    At F w (drainEnds d es : M (World (traced R) N) ε _) fun _ _ _ => True
  | [], _ => at_pure fun _ => trivial
  | .front :: es, w => by
    unfold drainEnds
    refine at_bind (at_attempt (at_callMut fun _ _ _ _ => at_callMut fun _ _ _ _ => at_remove)) fun r w1 _ _ => ?_
    refine at_bind at_drainEnds fun os w2 _ _ => ?_
    split
    · exact at_pure fun _ => trivial
    · exact at_pure fun _ => trivial
  | .back :: es, w => by
    unfold drainEnds
    refine at_bind (at_callMut fun _ _ _ _ => at_callMut fun _ _ _ _ => at_pop) fun r w1 _ _ => ?_
    exact at_bind at_drainEnds fun os w2 _ _ => at_pure fun _ => trivial

theorem at_call [Verif.Kind ε] {m : M (World (traced R) N) ε α} {out : α → Out} {Q : α → ArrayString N → (Nat → Mark) → Prop}
    (h : At F w m Q) : At F w (call m out) fun _ _ _ => True :=
  at_bind (at_mapErr h) fun _ _ _ _ => at_pure fun _ => trivial

theorem at_method [Verif.Kind ε] {caller : Tag} {m : Tag → M (World (traced R) N) ε α} {out : α → Out}
    (h : ∀ t w, ∃ Q, At F w (m t) Q) : At F w (method caller m out) fun _ _ _ => True :=
  at_call (Q := fun _ _ _ => True) (at_callMut fun t w1 _ _ => by
    obtain ⟨Q, hQ⟩ := h t w1
    exact at_mono hQ fun _ _ _ _ => trivial)

theorem at_construct [Verif.Kind ε] {caller : Tag} {make : M (World (traced R) N) ε (ArrayString N)}
    (h : At F w make fun t _ _ => Full t) : At F w (construct caller make) fun _ _ _ => True :=
  at_bind (at_mapErr h) fun _ _ _ ht => at_assign ht

theorem at_query [Verif.Kind ε] {m : M (World (traced R) N) ε Unit} {f : ArrayString N → Res ε α} {out : α → Out}
    {Q : Unit → ArrayString N → (Nat → Mark) → Prop} (h : At F w m Q)
    (hc : ∀ s k, Q () s k → Full s → ∀ s2 : ArrayString N, Full s2 →
      (∀ l ≤ N, (k l).read = true → byteAt s2 l = byteAt s l) → f s2 = f s) :
    At F w (query m f out) fun _ _ _ => True :=
  at_call (Q := fun _ _ _ => True) (at_bind h fun _ w1 _ hq =>
    at_get (fun f s2 f2 ha => by rw [hc _ _ hq f s2 f2 ha]) (at_lift fun _ _ => trivial))

theorem at_discard {m : M (World (traced R) N) ε α} {Q : α → ArrayString N → (Nat → Mark) → Prop}
    (h : At F w m Q) : At F w (discard m : M (World (traced R) N) ε Unit) fun _ s k => ∃ a, Q a s k := by
  refine at_bind (f := fun _ => pure ()) h fun a _ _ hq => at_pure fun _ => ⟨a, hq⟩

theorem at_exec (caller arg : Tag) (op : Op) :
    At False w (exec caller arg op : M (World (traced R) N) _ _) fun _ _ _ => True := by
  have full : ∀ {ε : Type} {w : World (traced R) N} {make : M (World (traced R) N) ε (ArrayString N)},
      At False w make (fun t s _ => s = w.str ∧ Full t) → At False w make fun t _ _ => Full t :=
    fun h => at_mono h fun _ _ _ h => h.2
  have seen : ∀ {α ε : Type} {f : ArrayString N → Res ε α} {g : Bytes → Res ε α},
      (∀ s, f s = s.asStr >>= g) → ∀ (s : ArrayString N) (k : Nat → Mark), Seen s k → Full s →
        ∀ s2 : ArrayString N, Full s2 → (∀ l ≤ N, (k l).read = true → byteAt s2 l = byteAt s l) → f s2 = f s :=
    fun e s k h f s2 f2 ha => by rw [e, e, h.asStr f f2 ha]
  cases op with
  | new => exact at_construct (full (at_made fun _ _ => at_pure fun _ => trivial))
  | default => exact at_construct (full (at_made fun _ _ => at_pure fun _ => trivial))
  | tryFromStr w => exact at_construct (full at_tryFromStr)
  | parse w => exact at_construct (full at_tryFromStr)
  | fromStrTruncate w => exact at_construct (full at_fromStrTruncate)
  | from_ w => exact at_construct (full at_fromStrTruncate)
  | tryFromIterator ws => exact at_construct (full at_tryFromIterator)
  | fromIteratorTruncate ws => exact at_construct (full at_fromIteratorTruncate)
  | collectStrs ws => exact at_construct (full at_fromIteratorTruncate)
  | tryFromChars w => exact at_construct (full at_tryFromChars)
  | fromCharsTruncate w => exact at_construct (full at_fromCharsTruncate)
  | collectChars w => exact at_construct (full at_fromCharsTruncate)
  | tryFromUtf16 l => exact at_construct (full at_tryFromUtf16)
  | fromUtf16Truncate l => exact at_construct (full at_fromUtf16Truncate)
  | fromUtf16LossyTruncate l => exact at_construct (full at_fromUtf16LossyTruncate)
  | tryPushStr w => exact at_method fun _ _ => ⟨_, at_tryPushStr⟩
  | pushStrTruncate w => exact at_method fun _ _ => ⟨_, at_pushStrTruncate⟩
  | tryPush c => exact at_method fun _ _ => ⟨_, at_tryPush⟩
  | truncate n => exact at_method fun _ _ => ⟨_, at_truncate⟩
  | pop => exact at_method fun _ _ => ⟨_, at_pop⟩
  | trim => exact at_method fun _ _ => ⟨_, at_trim⟩
  | remove i => exact at_method fun _ _ => ⟨_, at_remove⟩
  | retain f => exact at_method fun _ _ => ⟨_, at_retain⟩
  | tryInsert i c => exact at_method fun _ _ => ⟨_, at_tryInsert⟩
  | tryInsertStr i w => exact at_method fun _ _ => ⟨_, at_tryInsertStr⟩
  | insertStrTruncate i w => exact at_method fun _ _ => ⟨_, at_insertStrTruncate⟩
  | clear => exact at_method fun _ _ => ⟨fun _ _ _ => True, at_setSize fun _ => trivial⟩
  | drain r es =>
    refine at_call (Q := fun _ _ _ => True) ?_
    refine at_bind (at_callMut fun _ _ _ _ => at_drain) fun d w1 _ hd => ?_
    refine at_bind (at_withLocal hd fun v _ => ?_) fun p w2 _ _ => ?_
    · exact at_bind at_drainEnds fun os _ _ _ => at_bind at_look fun _ _ _ _ => at_pure fun _ => trivial
    · exact at_liftBind fun _ _ => at_pure fun _ => trivial
  | splitOff i =>
    refine at_call (Q := fun _ _ _ => True) ?_
    refine at_bind (at_callMut fun _ _ _ _ => at_splitOff) fun d w1 _ hd => ?_
    refine at_bind (at_withLocal hd fun v _ => at_mono at_look fun _ _ _ _ => trivial) fun p w2 _ _ => ?_
    exact at_lift fun _ _ => trivial
  | replaceRange r w => exact at_method fun _ _ => ⟨_, at_replaceRangeOn⟩
  | extendChars w => exact at_method fun _ _ => ⟨_, at_extend fun _ => ⟨_, at_fromCharsTruncate⟩⟩
  | extendStrs ws => exact at_method fun _ _ => ⟨_, at_extend fun _ => ⟨_, at_fromIteratorTruncate⟩⟩
  | add w => exact at_construct at_add
  | writeStr w => exact at_method fun _ _ => ⟨_, at_writeStr⟩
  | writeFmt ws => exact at_method fun _ _ => ⟨_, at_callMut fun _ _ _ _ => at_writeAll⟩
  | index i => exact at_call at_index
  | indexMut i e => exact at_call at_editSlice
  | asMutStr e => exact at_call at_editText
  | asStr => exact at_query (at_discard at_look) fun s k ⟨_, h⟩ => seen (g := .ok) (fun s => by
      cases (s.asStr : Res Error Bytes) <;> rfl) s k h.2.2
  | asBytes =>
    refine at_query (Q := fun _ s k => Seen s k) (at_bind at_asRefBytes ?_) fun s k h f s2 f2 ha => ?_
    · rintro ⟨a, n⟩ w2 _ ⟨h3, h4, h5⟩
      exact at_readAt fun k hm hk => ⟨hm _ h5, fun l hl => hk l (Nat.zero_le _)
        (by rw [show n = w2.str.len from h4]; exact hl)⟩
    · exact asRefBytes_agree f f2 (h.agree f f2 ha).1 (h.agree f f2 ha).2
  | display =>
    refine at_query at_reading fun s k h f s2 f2 ha => ?_
    have : ArrayString.display collect {} s2 = ArrayString.display collect {} s := by
      unfold ArrayString.display
      rw [h.2.asStr f f2 ha]
    simp only [this]
  | len =>
    exact at_query (at_discard at_len) fun s k ⟨_, h⟩ f s2 f2 ha => by
      simp only [ArrayString.len, byteAt_size (ha N (Nat.le_refl _) h.2.2)]
  | isEmpty => exact at_query (at_discard at_asRefStr) fun s k ⟨_, h⟩ => seen (fun s => rfl) s k h.2.2
  | capacity => exact at_query (Q := fun _ _ _ => True) (at_pure fun _ => trivial) fun _ _ _ _ _ _ _ => rfl
  | eqStr w =>
    refine at_query (Q := fun _ s k => Seen s k) (at_passShared fun _ w1 _ _ => ?_) fun s k h =>
      seen (fun s => rfl) s k h
    refine at_bind at_reading fun _ w2 _ ⟨_, h⟩ => ?_
    exact at_readAt fun k hm _ => ⟨hm _ h.1, fun l hl => hm l (h.2 l hl)⟩
  | hash => exact at_query at_reading fun s k h => seen (fun s => rfl) s k h.2

end Verif.Borrow
