import Verif.Interval.Elem
import Verif.Double.Elem

/-!
# Model of `geoseries` (/repo/kv/geoseries.hpp)
-/

namespace Kv
open Rop (lit)
open Kv.Interval (add sAdd sub sSub mul div sDiv point geIS leIS)

/-- geoseries.hpp:19-37.  The literals `1.` and `1` are converted to the base type by the mixed operators. -/
def geoseries (I : Interval D) : Res (Interval D) :=
  if geIS I (lit 0) then sDiv (lit 1) (sSub (lit 1) I)                             -- 23-25
  else
    let l := point I.inf                                                           -- 27
    let u := point I.sup                                                           -- 28
    if leIS I (lit 0) then do                                                      -- 30-33
      let tmp := sSub (lit 1) (mul l u)
      let a ← div (sAdd (lit 1) l) tmp
      let b ← div (sAdd (lit 1) u) tmp
      return ⟨a.inf, b.sup⟩
    else do                                                                        -- 35
      let q ← div l (sSub (lit 1) u)
      let b ← sDiv (lit 1) (sSub (lit 1) u)
      return ⟨(sAdd (lit 1) q).inf, b.sup⟩

end Kv
