import Mathlib.Analysis.Complex.Basic
import Mathlib.Analysis.Complex.Trigonometric
import Mathlib.Analysis.SpecialFunctions.Trigonometric.Basic
import Mathlib.Algebra.Order.Group.Int
import Verif.Optics.Model

/-!
# Surroundings for the examples of the theorems about optical elements
-/

namespace Optics

/-- The square root of the non-negative numbers. -/
noncomputable def csqrt (z : ℂ) : ℂ := (Real.sqrt z.re : ℂ)

theorem csqrt_real (z : ℂ) : star (csqrt z) = csqrt z := Complex.conj_ofReal _

theorem csqrt_sq {a : ℝ} (h : 0 ≤ a) : csqrt (a : ℂ) * csqrt (a : ℂ) = a := by
  unfold csqrt
  rw [Complex.ofReal_re, ← Complex.ofReal_mul, Real.mul_self_sqrt h]

theorem csqrt_zero : csqrt 0 = 0 := by simp [csqrt]

theorem csqrt_one : csqrt 1 = 1 := by simp [csqrt]

/-- An environment with one carrier (at 1/µm), with frequencies that are the integers, and with the functions and constants
of the complex numbers. -/
noncomputable def demo {P : Type} (ok : P → List (OKey Unit ℤ)) (sk : P → List ℤ) (rej : ℤ → Bool) : OEnv P Unit ℤ ℂ where
  okeys := ok
  skeys := sk
  reject := rej
  iwavelen_m := fun _ => 1000000
  freq := fun k => k
  i := Complex.I
  pi := Real.pi
  i2pi := 2 * Real.pi * Complex.I
  c_m_s := 299792458
  exp := Complex.exp
  sqrt := csqrt
  cos := Complex.cos
  sin := Complex.sin

/-- The keys with the given frequencies. -/
def keysAt (fs : List ℤ) : List (OKey Unit ℤ) :=
  fs.flatMap (fun f => [⟨(), f, .S, .lower⟩, ⟨(), f, .S, .raise⟩, ⟨(), f, .P, .lower⟩, ⟨(), f, .P, .raise⟩])

theorem mem_keysAt {fs : List ℤ} {k : OKey Unit ℤ} : k ∈ keysAt fs ↔ k.cls ∈ fs := by
  obtain ⟨⟨⟩, c, p, q⟩ := k
  unfold keysAt
  rw [List.mem_flatMap]
  constructor
  · rintro ⟨f, hf, h⟩
    simp only [List.mem_cons, OKey.mk.injEq, List.not_mem_nil, or_false] at h
    rcases h with h | h | h | h <;> exact h.2.1 ▸ hf
  · intro h
    refine ⟨c, h, ?_⟩
    cases p <;> cases q <;> simp

theorem keysAt_conj (fs : List ℤ) : ∀ k ∈ keysAt fs, ({ k with q := k.q.conj } : OKey Unit ℤ) ∈ keysAt fs := by
  intro k hk
  rw [mem_keysAt] at hk ⊢
  exact hk

theorem keysAt_nodup {fs : List ℤ} (h : fs.Nodup) : (keysAt fs).Nodup := by
  unfold keysAt
  rw [List.nodup_flatMap]
  refine ⟨fun f _ => by simp, ?_⟩
  refine List.Pairwise.imp ?_ h
  intro a b hab
  simp only [Function.onFun, List.disjoint_left]
  intro k hk hk'
  simp only [List.mem_cons, List.not_mem_nil, or_false] at hk hk'
  apply hab
  have h1 : k.cls = a := by rcases hk with rfl | rfl | rfl | rfl <;> rfl
  have h2 : k.cls = b := by rcases hk' with rfl | rfl | rfl | rfl <;> rfl
  exact h1.symm.trans h2

/-- The values of the exponentials at the time 1. -/
noncomputable def tick (k : ℤ) : ℂ := Complex.exp (Complex.I * k)

theorem tick_zero : tick 0 = 1 := by simp [tick]

theorem tick_add (k l : ℤ) : tick (k + l) = tick k * tick l := by
  unfold tick
  rw [← Complex.exp_add]
  push_cast
  ring_nf

theorem tick_star (k : ℤ) : star (tick k) = tick (-k) := by
  unfold tick
  show (starRingEnd ℂ) _ = _
  rw [← Complex.exp_conj]
  simp

end Optics
