import Mathlib.Data.Rat.Defs
import Mathlib.Algebra.Order.Ring.Rat
import Mathlib.Data.Rat.Cast.Defs

/-!
# `phasor/signals/filters/legendre_filters.py`: the polynomial of the "optimum" filter

Polynomials are the coefficient arrays of `numpy.polynomial`, constant term first, with `Fraction` entries; the entries are exact rational
numbers (numpy's 64 bit integers inside the fractions are taken as unbounded).  The operations of `numpy.polynomial` (sum, product, integral
from 0, value, composition, change of a Legendre series into powers) are written out by their definitions.
-/

namespace Lgd

abbrev Poly := List ℚ

namespace Poly

def add : Poly → Poly → Poly
  | [], q => q
  | p, [] => p
  | a :: p, b :: q => (a + b) :: add p q

def smul (c : ℚ) (p : Poly) : Poly := p.map (c * ·)

def mul : Poly → Poly → Poly
  | [], _ => []
  | a :: p, q => add (smul a q) (0 :: mul p q)

/-- `polynomial.polynomial.polyint`. -/
def integ (p : Poly) : Poly := 0 :: p.mapIdx fun i c => c / (i + 1)

/-- `P(x)` for a number. -/
def eval (x : ℚ) : Poly → ℚ
  | [] => 0
  | a :: p => a + x * eval x p

/-- `P(Q)` for a polynomial, by Horner's rule. -/
def comp : Poly → Poly → Poly
  | [], _ => []
  | a :: p, q => add [a] (mul q (comp p q))

/-- Trailing zeros are dropped (`trimseq`), all but one entry. -/
def trim (p : Poly) : Poly :=
  match (p.reverse.dropWhile (· = 0)).reverse with
  | [] => [0]
  | p => p

/-- The Legendre polynomials of `polynomial.Legendre`, by Bonnet's recursion. -/
def legendre : ℕ → Poly
  | 0 => [1]
  | 1 => [0, 1]
  | n + 2 => smul (1 / (n + 2)) (add (smul (2 * n + 3) (0 :: legendre (n + 1))) (smul (-(n + 1)) (legendre n)))

/-- `polynomial.Legendre(a, domain).convert(domain, polynomial.Polynomial)` on the domain [-1, 1]: the sum of `a[i]` times the Legendre
polynomial of degree `i`, the first entry of `a` having degree `i`. -/
def series : ℕ → List ℚ → Poly
  | _, [] => []
  | i, a :: l => add (smul a (legendre i)) (series (i + 1) l)

end Poly

/-- `k`, l.57 and l.62 (N > 0). -/
def order (N : ℕ) : ℕ := if N % 2 = 1 then (N - 1) / 2 else (N - 2) / 2

/-- `np.arange(1, 2*(k + 1) + 1, 2)`, l.58 and l.63. -/
def odds (k : ℕ) : List ℚ := (List.range (k + 1)).map fun (i : ℕ) => (2 * i + 1 : ℚ)

/-- The coefficients `a`, l.56-71, as fractions, l.74. -/
def coefs (N : ℕ) : List ℚ :=
  if N % 2 = 1 then odds (order N)
  else if order N % 2 = 1 then (odds (order N)).mapIdx fun i x => if i % 2 = 0 then 0 else x
  else (odds (order N)).mapIdx fun i x => if i % 2 = 1 then 0 else x

/-- `integrand`, l.76-87. -/
def integrand (N : ℕ) : Poly :=
  let k : ℚ := order N
  let v := Poly.series 0 (coefs N)
  if N % 2 = 1 then Poly.smul (1 / (2 * (k + 1) ^ 2)) (v.mul v)
  else Poly.smul (1 / ((k + 1) * (k + 2))) (Poly.mul [1, 1] (v.mul v))

/-- `defint`, l.90-93, in powers of omega, without trailing zeros. -/
def defint (N : ℕ) : Poly :=
  let indefint := (integrand N).integ
  ((indefint.comp [-1, 0, 2]).add [-(indefint.eval (-1))]).trim

/-- `int(x)` of a fraction: the part after the point is dropped. -/
def toInt (x : ℚ) : ℤ := x.num.tdiv x.den

/-- `optimum_poly(N)`, l.30-97. -/
def optimum_poly (N : ℕ) : List ℤ := if N = 0 then [0] else (defint N).reverse.map toInt

end Lgd
