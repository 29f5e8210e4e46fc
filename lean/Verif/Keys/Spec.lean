import Verif.Keys.Model

/-!
# Specification for keys

A frequency key means an integer combination of frequencies: a function `F → ℤ`.
`Expr` is a history of operations on frequency keys; `Expr.meaning` is what it should denote,
`Expr.eval` what the code computes.  A `DictKey` means a finite partial map `K → Option V`.
-/

universe u v

namespace Keys
open Py

section
variable {F : Type u} [DecidableEq F]

/-- The multiplicity of `f` in the integer combination written down as a dictionary. -/
def FrequencyKey.coef (k : FrequencyKey F) (f : F) : Int := (Dict.get? k.F_dict f).getD 0

/-- No stored multiplicity is zero. -/
def FrequencyKey.ZeroFree (k : FrequencyKey F) : Prop := ∀ fn ∈ k.F_dict, fn.2 ≠ 0

instance (k : FrequencyKey F) : Decidable k.ZeroFree :=
  inferInstanceAs (Decidable (∀ fn ∈ k.F_dict, fn.2 ≠ 0))

/-- Histories of key arithmetic starting from given keys. -/
inductive Expr (F : Type u)
  | lit (k : FrequencyKey F)
  | add (a b : Expr F)
  | sub (a b : Expr F)
  | neg (a : Expr F)
  | smul (n : Int) (a : Expr F)

/-- What the code computes. -/
def Expr.eval : Expr F → FrequencyKey F
  | .lit k => k
  | .add a b => a.eval.add b.eval
  | .sub a b => a.eval.sub b.eval
  | .neg a => a.eval.neg
  | .smul n a => FrequencyKey.rmul n a.eval

/-- The integer combination the history denotes. -/
def Expr.meaning : Expr F → F → Int
  | .lit k => k.coef
  | .add a b => fun f => a.meaning f + b.meaning f
  | .sub a b => fun f => a.meaning f - b.meaning f
  | .neg a => fun f => - a.meaning f
  | .smul n a => fun f => n * a.meaning f

/-- Literals are dictionaries. -/
def Expr.LitsWF : Expr F → Prop
  | .lit k => k.WF
  | .add a b => a.LitsWF ∧ b.LitsWF
  | .sub a b => a.LitsWF ∧ b.LitsWF
  | .neg a => a.LitsWF
  | .smul _ a => a.LitsWF

/-- Literals are dictionaries without zero entries and no factor is zero. -/
def Expr.Clean : Expr F → Prop
  | .lit k => k.WF ∧ k.ZeroFree
  | .add a b => a.Clean ∧ b.Clean
  | .sub a b => a.Clean ∧ b.Clean
  | .neg a => a.Clean
  | .smul n a => n ≠ 0 ∧ a.Clean

end

section
variable {K : Type u} {V : Type v} [DecidableEq K]

/-- The partial map a `DictKey` stands for. -/
def DictKey.view (k : DictKey K V) (key : K) : Option V := Dict.get? k.dict key

end
end Keys
