import Verif.Model.Stream

/-!
# What hfst-strip-header is for: "Remove any HFST3 headers" (tools/src/hfst-strip-header.cc:39)
-/
namespace Hfst.StripHeader
open Hfst.Stream

/-- How a header begins: `HFST3` and a NUL (libhfst/src/HfstInputStream.cc:788-807). -/
def sig : Bytes := [72, 70, 83, 84, 51, 0]

/-- The file without its headers.  A header is the text `HFST3` and the name of the type, each with a NUL
(libhfst/src/HfstInputStream.cc:751-781), or as much of it as there is before the end of the file. -/
inductive Stripped : Bytes → Bytes → Prop
  | none {a : Bytes} : ¬ sig <:+: a → Stripped a a
  | header {a t r o : Bytes} : ¬ sig <:+: a → 0 ∉ t → Stripped r o → Stripped (a ++ sig ++ t ++ 0 :: r) (a ++ o)
  | cut {a t : Bytes} : ¬ sig <:+: a → 0 ∉ t → Stripped (a ++ sig ++ t) a

end Hfst.StripHeader
