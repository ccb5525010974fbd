import Verif.Model.Borrow

/-!
# Tree Borrows, with the end of a protector as Miri has it

In `Model/Borrow` the access at the end of a protector reaches all nodes.  In Miri it does not reach the
nodes below the one that was protected: `release_protector` walks the tree with `traverse_nonchildren`.
What a function made from its argument and gives back is therefore not hit by the end of the function.
The two versions differ only here.  Like the rest of the rules this is written down from memory.
-/

namespace Verif.Borrow.Tree

/-- The tags below `t`.  Parents come after their children. -/
def below (t : Tag) : List Node → List Tag
  | [] => []
  | x :: st =>
    if x.parent = t ∨ x.parent ∈ below t st then x.tag :: below t st else below t st

/-- Access the byte through `t`, where the nodes below `t` are not affected.  All of them are newer than
`t`, so from `t` on this is `access`. -/
def accessOuter (write : Bool) (t : Tag) : List Node → Option (List Node)
  | [] => some []
  | x :: st =>
    if x.tag = t then access write t (x :: st)
    else if x.parent = t ∨ x.parent ∈ below t st then (accessOuter write t st).map (x :: ·)
    else do
      let p ← if write then foreignWrite x.protect x.perm else foreignRead x.protect x.perm
      let st ← accessOuter write t st
      some ({ x with perm := p } :: st)

/-- The end of a protector. -/
def releaseOuter (t : Tag) (st : List Node) : Option (List Node) := do
  let st ← match st.find? (·.tag == t) with
    | none => some st
    | some x =>
      if x.protect then
        match x.perm with
        | .active => accessOuter true t st
        | .disabled => some st
        | _ => accessOuter false t st
      else some st
  some (unprotect t st)

def rulesOuter : Rules := { rules with release := releaseOuter }

end Verif.Borrow.Tree
