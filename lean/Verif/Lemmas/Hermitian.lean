import Verif.Lemmas.OperationCore

/-! # Hermiticity of strings -/

namespace Qosy
open Coef

variable {K : Type} [Field K] [StarRing K] [Coef K]
variable {𝔸 : Type} [Ring 𝔸] [Algebra K 𝔸] {S : Set ℤ}

namespace SiteSys
variable (R : SiteSys K 𝔸 S)

/-- moving one operator through a word on other sites -/
theorem prod_mul_site {x : Op × ℤ} {w : Word} (hx : R.ok x.1 ∧ x.2 ∈ S) (hw : R.Ok w)
    (hn : x.2 ∉ w.map Prod.snd) :
    R.prod w * R.site x.1 x.2 = ((-1 : K) ^ (if R.odd x.1 then (R.oddLabels w).length else 0))
      • (R.site x.1 x.2 * R.prod w) := by
  induction w with
  | nil => simp [oddLabels]
  | cons z w ih =>
    simp only [List.map_cons, List.mem_cons, not_or] at hn
    have hc := R.comm z.1 x.1 hw.head.1 hx.1 z.2 hw.head.2 x.2 hx.2 (Ne.symm hn.1)
    rw [prod_cons, mul_assoc, ih hw.tail hn.2, mul_smul_comm, ← mul_assoc, hc, smul_mul_assoc, smul_smul,
      ← pow_add, mul_assoc]
    congr 2
    rw [oddLabels_cons]
    by_cases h1 : R.odd x.1 <;> by_cases h2 : R.odd z.1 <;> simp [h1, h2]

theorem star_prod [StarRing 𝔸] [StarModule K 𝔸] (hs : ∀ o, R.ok o → ∀ i ∈ S, star (R.site o i) = R.site o i)
    {w : Word} (hw : R.Ok w) (hn : (w.map Prod.snd).Nodup) :
    star (R.prod w) = ((-1 : K) ^ ((R.oddLabels w).length.choose 2)) • R.prod w := by
  induction w with
  | nil => simp [oddLabels]
  | cons x w ih =>
    rw [List.map_cons, List.nodup_cons] at hn
    rw [prod_cons, star_mul, hs _ hw.head.1 _ hw.head.2, ih hw.tail hn.2, smul_mul_assoc,
      R.prod_mul_site hw.head hw.tail hn.1, smul_smul, ← pow_add]
    congr 2
    rw [oddLabels_cons]
    by_cases h1 : R.odd x.1 <;> simp [h1, Nat.choose_succ_succ]; omega

end SiteSys

theorem PauliRep.star_den [StarRing 𝔸] [StarModule K 𝔸] (R : PauliRep K 𝔸 S)
    (hs : ∀ i ∈ S, star (R.X i) = R.X i ∧ star (R.Y i) = R.Y i ∧ star (R.Z i) = R.Z i)
    {s : OpString} (h : PauliString S s) : star (R.den s) = R.den s := by
  have h0 : R.sys.oddLabels s.word = [] := by simp [SiteSys.oddLabels, PauliRep.sys]
  rw [R.den_eq, h.val, one_smul, R.sys.star_prod _ h.good.ok (by rw [word_map_snd h.len]; exact h.nodup), h0]
  · simp
  · rintro o (rfl | rfl | rfl) i hi
    · exact (hs i hi).1
    · exact (hs i hi).2.1
    · exact (hs i hi).2.2

theorem MajoranaRep.star_den [StarRing 𝔸] [StarModule K 𝔸] (R : MajoranaRep K 𝔸 S)
    (hs : ∀ i ∈ S, star (R.a i) = R.a i ∧ star (R.b i) = R.b i)
    {s : OpString} (h : MajoranaString S s) : star (R.den s) = R.den s := by
  have hl := numAB_eq R h.len
  rw [R.den_eq, star_smul, R.sys.star_prod _ h.good.ok (by rw [word_map_snd h.len]; exact h.nodup), hl, smul_smul]
  · congr 1
    have hp := h.pref
    rw [← numAB] at hp
    by_cases hi : s.pref = .imag
    · have h1 := hp.mp hi
      rw [hi, ← Nat.odd_iff] at *
      rw [h1.neg_one_pow]; simp [Pref.val]
    · have h1 : (numAB s.ops).choose 2 % 2 = 0 := by
        have : ¬ ((numAB s.ops).choose 2 % 2 = 1) := fun h' => hi (hp.mpr h')
        omega
      rw [← Nat.even_iff] at h1
      rw [h1.neg_one_pow, Pref.val_of_ne_imag hi]; simp
  · rintro o (rfl | rfl | rfl) i hi
    · exact (hs i hi).1
    · exact (hs i hi).2
    · show star (R.d i) = R.d i
      rw [MajoranaRep.d, star_neg, star_smul, star_mul, (hs i hi).1, (hs i hi).2, R.ba i hi i hi]
      simp

end Qosy
