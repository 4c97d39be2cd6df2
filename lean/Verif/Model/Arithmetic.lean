import Verif.Model.Lengths

/-!
# Model of the arithmetic of the length types

`FloorDivision<T>` and `Coefficients<T>` for machine integers (here without overflow, see `Verif.Model.Machine`
for overflow), `mpz_class` and `mpq_class`.
-/

namespace Verif

/-- libintervalxt/intervalxt/sample/integer_floor_division.hpp:30-37: `divident / divisor`; C++ division rounds towards
zero and is undefined for zero. -/
def intFloorDivision (x y : ℤ) : M ℤ := if y = 0 then .error .ub else .ok (Int.tdiv x y)

/-- integer_coefficients.hpp:31-42: the numerator of a default constructed rational is assigned. -/
def intCoefficients (l : List ℤ) : M (List (List ℚ)) := .ok (l.map (fun (x : ℤ) => [(x : ℚ)]))

/-- The arithmetic of `sample::Lengths<int>` (and other integral types). (sample/integer_floor_division.hpp:31-37 and sample/integer_coefficients.hpp:32-42) -/
def intArith : Arith ℤ := ⟨intFloorDivision, intCoefficients⟩

/-- mpz_floor_division.hpp:32-39: `divident / divisor`; the operator of gmpxx rounds towards zero (`mpz_tdiv_q`) and raises
a signal for zero. -/
def mpzFloorDivision (x y : ℤ) : M ℤ := if y = 0 then .error .ub else .ok (Int.tdiv x y)

/-- mpz_coefficients.hpp:32-43 -/
def mpzCoefficients (l : List ℤ) : M (List (List ℚ)) := .ok (l.map (fun (x : ℤ) => [(x : ℚ)]))

/-- The arithmetic of `sample::Lengths<mpz_class>`. (sample/mpz_floor_division.hpp:33-39 and sample/mpz_coefficients.hpp:33-43) -/
def mpzArith : Arith ℤ := ⟨mpzFloorDivision, mpzCoefficients⟩

/-- mpq_floor_division.hpp:32-39: `(divident.get_num() * divisor.get_den()) / (divident.get_den() * divisor.get_num())`
with division of `mpz_class` rounding towards zero. -/
def mpqFloorDivision (x y : ℚ) : M ℤ :=
  if (x.den : ℤ) * y.num = 0 then .error .ub
  else .ok (Int.tdiv (x.num * (y.den : ℤ)) ((x.den : ℤ) * y.num))

/-- mpq_coefficients.hpp:32-43 -/
def mpqCoefficients (l : List ℚ) : M (List (List ℚ)) := .ok (l.map (fun x => [x]))

/-- The arithmetic of `sample::Lengths<mpq_class>`. (sample/mpq_floor_division.hpp:33-39 and sample/mpq_coefficients.hpp:33-43) -/
def mpqArith : Arith ℚ := ⟨mpqFloorDivision, mpqCoefficients⟩

end Verif
