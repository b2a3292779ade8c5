import Verif.Model.Stream

/-!
# hfst-strip-header

Model of `process_stream` of tools/src/hfst-strip-header.cc.
-/
namespace Hfst.StripHeader
open Hfst.Stream

/-- `header` with its NUL (tools/src/hfst-strip-header.cc:91). -/
def header : Bytes := ascii "HFST3" ++ [0]

/-- Where the loop is: `header_loc` bytes of the header have been found, or the inner loop is reading
(tools/src/hfst-strip-header.cc:92, 104-107). -/
inductive Place where
  | look (headerLoc : Nat)
  | eat

/-- The loop (tools/src/hfst-strip-header.cc:93-126): the bytes written.  Simplified: a byte that is put back (line 121) is looked at
at once with `header_loc` 0. -/
def run : Place → Bytes → Bytes
  | _, [] => []
  | .eat, c :: cs => if c = 0 then run (.look 0) cs else run .eat cs
  | .look n, c :: cs =>
    if header[n]? = some c then
      if n = 5 then run .eat cs else run (.look (n + 1)) cs
    else
      header.take n ++ (if header[0]? = some c then run (.look 1) cs else c :: run (.look 0) cs)

/-- `process_stream` (tools/src/hfst-strip-header.cc:88-128). -/
def strip (file : Bytes) : Bytes := run (.look 0) file

end Hfst.StripHeader
