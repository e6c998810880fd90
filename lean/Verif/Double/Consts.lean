import Verif.Double.Elem

/-!
The thresholds `Cst.*` of `Verif/Interval/Elem.lean` are the doubles that the C++ expressions
evaluate to in round-to-nearest.
-/

namespace Kv
namespace Cst

/-- `std::sqrt(n.)` in round-to-nearest -/
def dsqrt (n : ℕ) : Fl binary64 := Fl.sqrt .near (Fl.lit n)

theorem sqrt2_ok : dsqrt 2 = Fl.lit sqrt2 := by decide +kernel
theorem sqrt2p1_ok : Fl.add .near (dsqrt 2) (Fl.lit 1) = Fl.lit sqrt2p1 := by decide +kernel
theorem sqrt2m1_ok : Fl.sub .near (dsqrt 2) (Fl.lit 1) = Fl.lit sqrt2m1 := by decide +kernel
theorem log1_ok : Fl.sub .near (Fl.mul .near (Fl.lit 4) (dsqrt 2)) (Fl.lit 4) = Fl.lit log1 := by
  decide +kernel
theorem log2_ok : Fl.sub .near (Fl.lit 4) (Fl.mul .near (Fl.lit 2) (dsqrt 2)) = Fl.lit log2 := by
  decide +kernel
theorem log3_ok : Fl.sub .near (Fl.lit 2) (dsqrt 2) = Fl.lit log3 := by decide +kernel
theorem log4_ok : Fl.sub .near (Fl.mul .near (Fl.lit 2) (dsqrt 2)) (Fl.lit 2) = Fl.lit log4 := by
  decide +kernel
theorem log1p_ok : Fl.sub .near (Fl.lit 3) (Fl.mul .near (Fl.lit 2) (dsqrt 2)) = Fl.lit log1p := by
  decide +kernel
theorem sqrt6_ok : dsqrt 6 = Fl.lit sqrt6 := by decide +kernel
theorem sqrt6d3_ok : Fl.div .near (dsqrt 6) (Fl.lit 3) = Fl.lit sqrt6d3 := by decide +kernel

end Cst
end Kv
