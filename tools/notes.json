{
 "C04": {
  "note": "write! (write_fmt) is excluded: it may write some pieces before it fails (C04_write_refuted)."
 },
 "C14": {
  "note": "C14_refuted: the doc comment's claim is false; C14_from_utf16_truncate is the exact behaviour."
 },
 "C32": {
  "note": "C32_refuted: width, fill and precision are ignored, unlike str."
 },
 "C35": {
  "note": "C35_exhausted: an exhausted RangeInclusive<u8> is treated as if it were fresh."
 },
 "C42": {
  "note": "C42_strs_loops: an endless supply of empty pieces loops for ever. C42_extend_pulls: extend pulls a capacity's worth from an endless supply whatever the free space."
 },
 "C45": {
  "note": "C45_refuted plus exact characterisations."
 },
 "C38": {
  "note": "C38_refuted: input the format cannot lend (e.g. JSON with escapes, any reader) is rejected, unlike String; C38_json is the exact behaviour for JSON strings."
 },
 "C40": {
  "note": "C40_refuted: SmallString is one byte larger than String, contrary to its doc comment. Equalities are for the layout with least padding (what rustc does); the lower bounds hold of every layout the reference allows."
 },
 "C47": {
  "note": "C47_exceptions and C47_utf16 are the complete list of calls on which the two types differ although the result fits."
 },
 "C52": {
  "note": "Model/CoreStr is a transcription of library/core, which is not part of the repository."
 },
 "C53": {
  "note": "The unconditional claim is false (C53_refuted, C53_undefined): a logger that panics can leave invalid UTF-8. C53_cut_short and C53_broken_only say exactly when."
 },
 "C59": {
  "note": "What programs are left out is listed in DESIGN.md section 6."
 },
 "C60": {
  "note": "Data races are excluded because no step writes; the order of steps is sequentially consistent."
 }
}