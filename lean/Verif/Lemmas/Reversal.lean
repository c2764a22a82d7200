import Verif.Lemmas.Transformation
import Verif.Lemmas.StrAlgInst

/-! # Time reversal and particle-hole: signs of strings -/

namespace Qosy
open Coef
variable {K : Type} [Field K] [StarRing K] [Coef K]
variable {𝔸 : Type} [Ring 𝔸] [Algebra K 𝔸] {S T : Set ℤ}

theorem flipIf_odd (n : ℕ) (c : K) : flipIf (n % 2 = 1) c = (-1) ^ n * c := by
  unfold flipIf
  split
  · rename_i h
    rw [Odd.neg_one_pow (Nat.odd_iff.mpr h)]; ring
  · rename_i h
    rw [Even.neg_one_pow (Nat.even_iff.mpr (by omega))]; ring

/-- number of `B` operators -/
def numB (ops : List Op) : ℕ := ops.countP (fun o => o = .B)
/-- number of `D` operators -/
def numD (ops : List Op) : ℕ := ops.countP (fun o => o = .D)

theorem countOps_ok : ∀ {ops : List Op}, (∀ o ∈ ops, o = .A ∨ o = .B ∨ o = .D) → ∀ n : OpCounts,
    countOps ops n = .ok ⟨n.ab + numAB ops, n.b + numB ops, n.d + numD ops⟩
  | [], _, n => by simp [countOps, numAB, numB, numD]
  | o :: ops, h, n => by
    have ih := countOps_ok (fun o ho => h o (List.mem_cons_of_mem _ ho))
    rcases h o (List.mem_cons_self ..) with rfl | rfl | rfl
    · rw [countOps, ih]; simp [numAB, numB, numD]; omega
    · rw [countOps, ih]; simp [numAB, numB, numD]; omega
    · rw [countOps, ih]; simp [numAB, numB, numD]; omega

/-- site operators that differ by signs -/
theorem wordProd_sign (p : Op → Bool) (f g : Op → ℤ → 𝔸) : ∀ {ops : List Op} {labels : List ℤ}, ops.length = labels.length →
    (∀ o ∈ ops, ∀ l ∈ labels, f o l = (if p o then (-1 : K) else 1) • g o l) →
    wordProd f ops labels = ((-1 : K) ^ (ops.countP p)) • wordProd g ops labels
  | [], [], _, _ => by simp [wordProd]
  | o :: ops, l :: labels, hl, h => by
    have ih := wordProd_sign p f g (ops := ops) (labels := labels) (by simpa using hl)
      (fun o ho l hl => h o (List.mem_cons_of_mem _ ho) l (List.mem_cons_of_mem _ hl))
    rw [wordProd, wordProd, ih, h o (List.mem_cons_self ..) l (List.mem_cons_self ..), List.countP_cons, smul_mul_smul_comm]
    congr 1
    by_cases hp : p o <;> simp [hp, pow_succ]

theorem map_wordProd {𝔹 : Type} [Ring 𝔹] (τ : 𝔸 →+* 𝔹) (site : Op → ℤ → 𝔸) : ∀ (ops : List Op) (labels : List ℤ),
    τ (wordProd site ops labels) = wordProd (fun o l => τ (site o l)) ops labels
  | [], _ => by simp [wordProd]
  | _ :: _, [] => by simp [wordProd]
  | o :: ops, l :: labels => by rw [wordProd, wordProd, map_mul, map_wordProd τ site ops labels]

theorem star_pref {s : OpString} (h : MajoranaString S s) : star (s.pref.val : K) = (-1) ^ ((numAB s.ops).choose 2) * s.pref.val := by
  have := h.pref
  rw [← numAB] at this
  by_cases hi : s.pref = .imag
  · rw [hi, Pref.val, Odd.neg_one_pow (Nat.odd_iff.mpr (this.mp hi))]; simp
  · rw [Pref.val_of_ne_imag hi, Even.neg_one_pow (Nat.even_iff.mpr (by have := mt this.mpr hi; omega))]; simp

/-- the sign of a string under time reversal -/
def trSign (K : Type) [Field K] (s : OpString) : K :=
  if s.opType = .majorana then (-1) ^ ((numAB s.ops).choose 2) * (-1) ^ numB s.ops else (-1) ^ s.ops.length

/-- the sign of a string under particle-hole -/
def phSign (K : Type) [Field K] (s : OpString) : K := (-1) ^ numD s.ops * (-1) ^ numB s.ops

theorem pow_sign (n : ℕ) : ((-1 : K) ^ n = 1) ∨ ((-1 : K) ^ n = -1) := neg_one_pow_eq_or K n

theorem trSign_cases (s : OpString) : trSign K s = 1 ∨ trSign K s = -1 := by
  unfold trSign
  split
  · rw [← pow_add]; exact pow_sign _
  · exact pow_sign _

theorem phSign_cases (s : OpString) : phSign K s = 1 ∨ phSign K s = -1 := by
  unfold phSign; rw [← pow_add]; exact pow_sign _

theorem timeReversal_pauli {s : OpString} (h : PauliString S s) : (timeReversal : Transformation K).Sends s (trSign K s) s := by
  unfold Transformation.Sends timeReversal timeReversalRule
  simp only [h.type]
  rw [mkOperator_none_ok (t := .pauli) (by simp) (by simp) (by simp [h.type]), flipIf_odd]
  simp [trSign, h.type]

theorem timeReversal_majorana {s : OpString} (h : MajoranaString S s) : (timeReversal : Transformation K).Sends s (trSign K s) s := by
  unfold Transformation.Sends timeReversal timeReversalRule
  simp only [h.type, countOps_ok h.ops, bind, Except.bind]
  rw [mkOperator_none_ok (t := .majorana) (by simp) (by simp) (by simp [h.type]), flipIf_odd]
  simp only [Nat.zero_add, ← Nat.choose_two_right, trSign, h.type, if_true]
  rw [flipIf_odd, mul_one]

theorem particleHole_majorana {s : OpString} (h : MajoranaString S s) : (particleHole : Transformation K).Sends s (phSign K s) s := by
  unfold Transformation.Sends particleHole particleHoleRule
  simp only [h.type, countOps_ok h.ops, bind, Except.bind]
  rw [mkOperator_none_ok (t := .majorana) (by simp) (by simp) (by simp [h.type]), flipIf_odd]
  simp only [Nat.zero_add, phSign]
  rw [flipIf_odd, mul_one]

theorem ops_count_all {s : OpString} (h : PauliString S s) : s.ops.countP (fun _ => true) = s.ops.length := by simp

/-- the image of a Pauli string under time reversal -/
theorem Antilinear.pauli (τ : Antilinear K 𝔸) (R : PauliRep K 𝔸 S) (hτ : τ.ReversesSpins R) {s : OpString} (h : PauliString S s) :
    τ.toFun (R.den s) = trSign K s • R.den s := by
  rw [PauliRep.den, h.val, one_smul, map_wordProd,
    wordProd_sign (K := K) (fun _ => true) (fun o l => τ.toFun (R.site o l)) R.site h.len]
  · simp [trSign, h.type]
  · intro o ho l hl
    rcases h.ops o ho with rfl | rfl | rfl
    · simpa [PauliRep.site] using (hτ l (h.mem l hl)).1
    · simpa [PauliRep.site] using (hτ l (h.mem l hl)).2.1
    · simpa [PauliRep.site] using (hτ l (h.mem l hl)).2.2

theorem Antilinear.d (τ : Antilinear K 𝔸) (R : MajoranaRep K 𝔸 S) (hτ : τ.ReversesFermions R) {i : ℤ} (hi : i ∈ S) :
    τ.toFun (R.d i) = R.d i := by
  obtain ⟨h1, h2⟩ := hτ i hi
  rw [MajoranaRep.d, map_neg, τ.smul, map_mul, h1, h2, star_I]; simp

/-- the image of a Majorana string under time reversal -/
theorem Antilinear.majorana (τ : Antilinear K 𝔸) (R : MajoranaRep K 𝔸 S) (hτ : τ.ReversesFermions R) {s : OpString}
    (h : MajoranaString S s) : τ.toFun (R.den s) = trSign K s • R.den s := by
  rw [MajoranaRep.den, τ.smul, map_wordProd,
    wordProd_sign (K := K) (fun o => o = .B) (fun o l => τ.toFun (R.site o l)) R.site h.len, star_pref h]
  · simp only [trSign, h.type, if_true, smul_smul, numB]; congr 1; ring
  · intro o ho l hl
    rcases h.ops o ho with rfl | rfl | rfl
    · simpa [MajoranaRep.site] using (hτ l (h.mem l hl)).1
    · simpa [MajoranaRep.site] using (hτ l (h.mem l hl)).2
    · simpa [MajoranaRep.site] using τ.d R hτ (h.mem l hl)

theorem MajoranaRep.particleHole_d (R : MajoranaRep K 𝔸 S) (i : ℤ) : R.particleHole.d i = -R.d i := by
  simp [MajoranaRep.d, MajoranaRep.particleHole]

theorem MajoranaRep.particleHole_den (R : MajoranaRep K 𝔸 S) {s : OpString} (h : MajoranaString S s) :
    R.particleHole.den s = phSign K s • R.den s := by
  rw [MajoranaRep.den, MajoranaRep.den, wordProd_sign (K := K) (fun o => o = .B ∨ o = .D) R.particleHole.site R.site h.len]
  · rw [smul_comm]
    congr 1
    rw [phSign, ← pow_add]
    congr 1
    simp only [numD, numB]
    have : ∀ ops : List Op, ops.countP (fun o => decide (o = .B ∨ o = .D)) =
        ops.countP (fun o => decide (o = .D)) + ops.countP (fun o => decide (o = .B)) := by
      intro ops
      induction ops with
      | nil => rfl
      | cons o ops ih => simp only [List.countP_cons, ih]; cases o <;> simp <;> omega
    exact this s.ops
  · intro o ho l hl
    rcases h.ops o ho with rfl | rfl | rfl
    · simp [MajoranaRep.site, MajoranaRep.particleHole]
    · simp [MajoranaRep.site, MajoranaRep.particleHole]
    · simp [MajoranaRep.site, R.particleHole_d]

/-! ### the algebra with conjugated scalars -/

/-- the same ring with the scalars acting through complex conjugation -/
def Twist (𝔸 : Type) : Type := 𝔸

instance : Ring (Twist 𝔸) := inferInstanceAs (Ring 𝔸)
noncomputable instance : Algebra K (Twist 𝔸) := Algebra.compHom 𝔸 (starRingEnd K)

/-- the identity as a map to the twisted algebra -/
def Twist.of : 𝔸 ≃+* Twist 𝔸 := RingEquiv.refl 𝔸

theorem Twist.wordProd_of (site : Op → ℤ → 𝔸) (ops : List Op) (labels : List ℤ) :
    wordProd (fun o l => (Twist.of (site o l) : Twist 𝔸)) ops labels = Twist.of (wordProd site ops labels) :=
  (map_wordProd (Twist.of (𝔸 := 𝔸)).toRingHom site ops labels).symm

theorem Twist.smul_of (c : K) (x : 𝔸) : c • (Twist.of x : Twist 𝔸) = Twist.of (star c • x) := rfl

/-- time-reversed spins form a spin system with conjugated scalars -/
noncomputable def PauliRep.reversed (R : PauliRep K 𝔸 S) : PauliRep K (Twist 𝔸) S where
  X i := Twist.of (-R.X i)
  Y i := Twist.of (-R.Y i)
  Z i := Twist.of (-R.Z i)
  x_sq i hi := by rw [← map_mul, neg_mul_neg, R.x_sq i hi, map_one]
  y_sq i hi := by rw [← map_mul, neg_mul_neg, R.y_sq i hi, map_one]
  z_sq i hi := by rw [← map_mul, neg_mul_neg, R.z_sq i hi, map_one]
  x_mul_y i hi := by rw [← map_mul, neg_mul_neg, R.x_mul_y i hi, Twist.smul_of]; simp
  y_mul_z i hi := by rw [← map_mul, neg_mul_neg, R.y_mul_z i hi, Twist.smul_of]; simp
  z_mul_x i hi := by rw [← map_mul, neg_mul_neg, R.z_mul_x i hi, Twist.smul_of]; simp
  y_mul_x i hi := by rw [← map_mul, neg_mul_neg, R.y_mul_x i hi, Twist.smul_of]; simp
  z_mul_y i hi := by rw [← map_mul, neg_mul_neg, R.z_mul_y i hi, Twist.smul_of]; simp
  x_mul_z i hi := by rw [← map_mul, neg_mul_neg, R.x_mul_z i hi, Twist.smul_of]; simp
  xx i hi j hj h := by rw [← map_mul, ← map_mul, neg_mul_neg, neg_mul_neg, R.xx i hi j hj h]
  xy i hi j hj h := by rw [← map_mul, ← map_mul, neg_mul_neg, neg_mul_neg, R.xy i hi j hj h]
  xz i hi j hj h := by rw [← map_mul, ← map_mul, neg_mul_neg, neg_mul_neg, R.xz i hi j hj h]
  yy i hi j hj h := by rw [← map_mul, ← map_mul, neg_mul_neg, neg_mul_neg, R.yy i hi j hj h]
  yz i hi j hj h := by rw [← map_mul, ← map_mul, neg_mul_neg, neg_mul_neg, R.yz i hi j hj h]
  zz i hi j hj h := by rw [← map_mul, ← map_mul, neg_mul_neg, neg_mul_neg, R.zz i hi j hj h]

/-- time-reversed Majorana operators form a Majorana system with conjugated scalars -/
noncomputable def MajoranaRep.reversed (R : MajoranaRep K 𝔸 S) : MajoranaRep K (Twist 𝔸) S where
  a i := Twist.of (R.a i)
  b i := Twist.of (-R.b i)
  a_sq i hi := by rw [← map_mul, R.a_sq i hi, map_one]
  b_sq i hi := by rw [← map_mul, neg_mul_neg, R.b_sq i hi, map_one]
  ab i hi j hj := by rw [← map_mul, ← map_mul, mul_neg, neg_mul, R.ab i hi j hj]; simp
  aa i hi j hj h := by rw [← map_mul, ← map_mul, R.aa i hi j hj h, map_neg]
  bb i hi j hj h := by rw [← map_mul, ← map_mul, neg_mul_neg, neg_mul_neg, R.bb i hi j hj h, map_neg]

theorem PauliRep.reversed_den (R : PauliRep K 𝔸 S) {s : OpString} (h : PauliString S s) :
    R.reversed.den s = Twist.of (trSign K s • R.den s) := by
  have hw := wordProd_sign (K := K) (fun _ => true) R.reversed.site (fun o l => Twist.of (R.site o l)) h.len ?_
  · rw [PauliRep.den, hw, h.val, one_smul, Twist.wordProd_of, Twist.smul_of]
    simp [trSign, h.type, PauliRep.den, h.val]
  · intro o ho l hl
    rcases h.ops o ho with rfl | rfl | rfl <;> simp [PauliRep.reversed, PauliRep.site]

theorem MajoranaRep.reversed_den (R : MajoranaRep K 𝔸 S) {s : OpString} (h : MajoranaString S s) :
    R.reversed.den s = Twist.of (trSign K s • R.den s) := by
  have hw := wordProd_sign (K := K) (fun o => o = .B) R.reversed.site (fun o l => Twist.of (R.site o l)) h.len ?_
  · rw [MajoranaRep.den, hw, Twist.wordProd_of, Twist.smul_of, Twist.smul_of, star_pref h, MajoranaRep.den, smul_smul, smul_smul]
    simp only [trSign, h.type, if_true, star_pow, star_neg, star_one, numB]
    congr 2; ring
  · intro o ho l hl
    rcases h.ops o ho with rfl | rfl | rfl
    · simp [MajoranaRep.reversed, MajoranaRep.site]
    · simp [MajoranaRep.reversed, MajoranaRep.site]
    · simp only [MajoranaRep.site, MajoranaRep.d, MajoranaRep.reversed]
      rw [← map_mul, Twist.smul_of]; simp

/-- multiples of one string -/
theorem StrAlg.smul_inj [Nontrivial 𝔸] (R : StrAlg K 𝔸) {s : OpString} (hs : R.Str s) {x y : K} (h : x • R.den s = y • R.den s) : x = y := by
  have h1 : (x - y) • (1 : 𝔸) = 0 := by
    rw [← R.sq s hs, ← smul_mul_assoc, sub_smul, h, sub_self, zero_mul]
  by_contra hne
  have := congrArg (fun z => (x - y)⁻¹ • z) h1
  simp only [smul_smul, inv_mul_cancel₀ (sub_ne_zero.mpr hne), one_smul, smul_zero] at this
  exact one_ne_zero this

end Qosy
