import Verif.Model.Transformation
import Verif.Spec.JordanWigner
import Verif.Spec.MatrixRep
import Verif.Spec.Linear
import Mathlib.Algebra.Star.Basic
import Mathlib.Algebra.Algebra.Basic
import Mathlib.Data.Set.Function

/-!
# Specification: transformations of site operators

A symmetry transformation is specified by what it does to the site operators: relabelling, `a ↦ a, b ↦ -b`, and so on.  The
image of a string is then the string built from the images of the site operators.
-/

namespace Qosy
variable {K : Type} [Field K] [StarRing K] [Coef K]
variable {𝔸 : Type} [Ring 𝔸] [Algebra K 𝔸] {S T : Set ℤ}

/-- where the permutation array sends an orbital label -/
def relabelMap (perm : List Int) (l : ℤ) : ℤ := perm.getD l.toNat 0

/-- The spin operators with relabelled sites: the operator called `X i` is now `X (e i)`. -/
def PauliRep.relabelOn (R : PauliRep K 𝔸 T) (e : ℤ → ℤ) (he : Set.InjOn e S) (hT : Set.MapsTo e S T) : PauliRep K 𝔸 S where
  X i := R.X (e i)
  Y i := R.Y (e i)
  Z i := R.Z (e i)
  x_sq i hi := R.x_sq _ (hT hi)
  y_sq i hi := R.y_sq _ (hT hi)
  z_sq i hi := R.z_sq _ (hT hi)
  x_mul_y i hi := R.x_mul_y _ (hT hi)
  y_mul_z i hi := R.y_mul_z _ (hT hi)
  z_mul_x i hi := R.z_mul_x _ (hT hi)
  y_mul_x i hi := R.y_mul_x _ (hT hi)
  z_mul_y i hi := R.z_mul_y _ (hT hi)
  x_mul_z i hi := R.x_mul_z _ (hT hi)
  xx i hi j hj h := R.xx _ (hT hi) _ (hT hj) (fun h' => h (he hi hj h'))
  xy i hi j hj h := R.xy _ (hT hi) _ (hT hj) (fun h' => h (he hi hj h'))
  xz i hi j hj h := R.xz _ (hT hi) _ (hT hj) (fun h' => h (he hi hj h'))
  yy i hi j hj h := R.yy _ (hT hi) _ (hT hj) (fun h' => h (he hi hj h'))
  yz i hi j hj h := R.yz _ (hT hi) _ (hT hj) (fun h' => h (he hi hj h'))
  zz i hi j hj h := R.zz _ (hT hi) _ (hT hj) (fun h' => h (he hi hj h'))

/-- The Majorana operators with relabelled orbitals. -/
def MajoranaRep.relabelOn (R : MajoranaRep K 𝔸 T) (e : ℤ → ℤ) (he : Set.InjOn e S) (hT : Set.MapsTo e S T) : MajoranaRep K 𝔸 S where
  a i := R.a (e i)
  b i := R.b (e i)
  a_sq i hi := R.a_sq _ (hT hi)
  b_sq i hi := R.b_sq _ (hT hi)
  ab i hi j hj := R.ab _ (hT hi) _ (hT hj)
  aa i hi j hj h := R.aa _ (hT hi) _ (hT hj) (fun h' => h (he hi hj h'))
  bb i hi j hj h := R.bb _ (hT hi) _ (hT hj) (fun h' => h (he hi hj h'))

/-- The Majorana operators after a particle-hole transformation: `a ↦ a`, `b ↦ -b`. -/
def MajoranaRep.particleHole (R : MajoranaRep K 𝔸 S) : MajoranaRep K 𝔸 S where
  a i := R.a i
  b i := -R.b i
  a_sq i hi := R.a_sq i hi
  b_sq i hi := by rw [neg_mul_neg, R.b_sq i hi]
  ab i hi j hj := by rw [mul_neg, neg_mul, R.ab i hi j hj]
  aa i hi j hj h := R.aa i hi j hj h
  bb i hi j hj h := by rw [neg_mul_neg, neg_mul_neg, R.bb i hi j hj h]

/-- An antilinear ring homomorphism, such as conjugation by an antiunitary operator: additive, multiplicative and
`τ (c x) = c̄ τ x`. -/
structure Antilinear (K : Type) [Field K] [StarRing K] (𝔸 : Type) [Ring 𝔸] [Algebra K 𝔸] where
  toFun : 𝔸 →+* 𝔸
  smul : ∀ (c : K) (x : 𝔸), toFun (c • x) = star c • toFun x

/-- time reversal of spins: every spin operator changes its sign -/
def Antilinear.ReversesSpins (τ : Antilinear K 𝔸) (R : PauliRep K 𝔸 S) : Prop :=
  ∀ i ∈ S, τ.toFun (R.X i) = -R.X i ∧ τ.toFun (R.Y i) = -R.Y i ∧ τ.toFun (R.Z i) = -R.Z i

/-- time reversal of spinless fermions: `c ↦ c`, `c† ↦ c†`, that is `a ↦ a`, `b ↦ -b` -/
def Antilinear.ReversesFermions (τ : Antilinear K 𝔸) (R : MajoranaRep K 𝔸 S) : Prop :=
  ∀ i ∈ S, τ.toFun (R.a i) = R.a i ∧ τ.toFun (R.b i) = -R.b i

/-- a valid string of a given type, with labels in `S` -/
def TypedString (t : OpType) (S : Set ℤ) (s : OpString) : Prop :=
  (t = .pauli ∧ PauliString S s) ∨ (t = .majorana ∧ MajoranaString S s)

/-- the permutation array as a list of labels -/
def labelsOf (p : List ℕ) : List ℤ := p.map Int.ofNat

/-! ### general transformations -/

/-- `T` maps the strings in `V` (all of type `t`) to well-formed Operators made of strings in `V`. -/
structure Transformation.Maps (T : Transformation K) (t : OpType) (V : OpString → Prop) : Prop where
  type : ∀ s, V s → s.opType = t
  ok : ∀ s, V s → ∃ O, T s = .ok O ∧ O.WF ∧ O.opType = t ∧ ∀ s' ∈ O.basis.strs, V s'

/-- an Operator all of whose strings are in `V` -/
structure Operator.On (A : Operator K) (t : OpType) (V : OpString → Prop) : Prop where
  wf : A.WF
  type : A.opType = t
  mem : ∀ s ∈ A.basis.strs, V s

/-- the coefficient of `s'` in the image of `s` -/
def Transformation.entry (T : Transformation K) (s' s : OpString) : K :=
  match T s with
  | .ok O => O.coef s'
  | .error _ => 0

/-- In `T * U` no non-zero coefficient is small enough to be dropped: all are larger than `1e-12`. -/
def NoDrop (T U : Transformation K) (V : OpString → Prop) : Prop :=
  ∀ s, V s → ∀ O, U s = .ok O → ∀ x ∈ O.terms, ∀ O', T x.2 = .ok O' → ∀ y ∈ O'.terms,
    x.1 * y.1 = 0 ∨ absGt (x.1 * y.1) (1 / 10 ^ 12) = true

/-- `T(T(…T(A)…))`, `n` times -/
def Transformation.iterate (T : Transformation K) : ℕ → Operator K → Py (Operator K)
  | 0, A => .ok A
  | n + 1, A => do
    let B ← T.apply A
    T.iterate n B

/-- the transformation sends `s` to `ε` times the one string `s'` -/
def Transformation.Sends (T : Transformation K) (s : OpString) (ε : K) (s' : OpString) : Prop :=
  T s = .ok ⟨[ε], Basis.ofList [s'], s.opType⟩

end Qosy
