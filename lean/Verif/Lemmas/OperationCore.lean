import Verif.Lemmas.Operation
import Mathlib.Data.Nat.Choose.Basic

/-! # `_operation_opstring` computes the true products and brackets -/

namespace Qosy

variable {K : Type} [Field K] [StarRing K] [Coef K]
variable {𝔸 : Type} [Ring 𝔸] [Algebra K 𝔸] {S : Set ℤ}

open Coef

/-- the Pauli algebra as a site system -/
def PauliRep.sys (R : PauliRep K 𝔸 S) : SiteSys K 𝔸 S where
  site := R.site
  ok o := o = .X ∨ o = .Y ∨ o = .Z
  odd _ := false
  sq := by
    rintro o (rfl | rfl | rfl) i hi
    · exact R.x_sq i hi
    · exact R.y_sq i hi
    · exact R.z_sq i hi
  mul := by
    rintro o o' (rfl | rfl | rfl) (rfl | rfl | rfl) hne <;> first | exact absurd rfl hne | skip
    · exact ⟨I, .Z, rfl, by simp [productDict], by simp, by simp, R.x_mul_y⟩
    · exact ⟨-I, .Y, rfl, by simp [productDict], by simp, by simp,
        fun i hi => by rw [neg_smul]; exact R.x_mul_z i hi⟩
    · exact ⟨-I, .Z, rfl, by simp [productDict], by simp, by simp,
        fun i hi => by rw [neg_smul]; exact R.y_mul_x i hi⟩
    · exact ⟨I, .X, rfl, by simp [productDict], by simp, by simp, R.y_mul_z⟩
    · exact ⟨I, .Y, rfl, by simp [productDict], by simp, by simp, R.z_mul_x⟩
    · exact ⟨-I, .X, rfl, by simp [productDict], by simp, by simp,
        fun i hi => by rw [neg_smul]; exact R.z_mul_y i hi⟩
  comm := by
    rintro o o' (rfl | rfl | rfl) (rfl | rfl | rfl) i hi j hj hij <;> simp only [Bool.false_eq_true, false_and,
      if_false, pow_zero, one_smul, PauliRep.site]
    · exact R.xx i hi j hj hij
    · exact R.xy i hi j hj hij
    · exact R.xz i hi j hj hij
    · exact (R.xy j hj i hi hij.symm).symm
    · exact R.yy i hi j hj hij
    · exact R.yz i hi j hj hij
    · exact (R.xz j hj i hi hij.symm).symm
    · exact (R.yz j hj i hi hij.symm).symm
    · exact R.zz i hi j hj hij

section
variable (R : MajoranaRep K 𝔸 S)

theorem MajoranaRep.ba (i : ℤ) (hi : i ∈ S) (j : ℤ) (hj : j ∈ S) : R.b i * R.a j = -(R.a j * R.b i) := by
  rw [R.ab j hj i hi, neg_neg]

theorem MajoranaRep.a_mul_d (i : ℤ) (hi : i ∈ S) : R.a i * R.d i = -(I : K) • R.b i := by
  rw [MajoranaRep.d, mul_neg, mul_smul_comm, ← mul_assoc, R.a_sq i hi, one_mul, neg_smul]

theorem MajoranaRep.b_mul_d (i : ℤ) (hi : i ∈ S) : R.b i * R.d i = (I : K) • R.a i := by
  rw [MajoranaRep.d, mul_neg, mul_smul_comm, ← mul_assoc, R.ba i hi i hi, neg_mul, mul_assoc, R.b_sq i hi,
    mul_one, smul_neg, neg_neg]

theorem MajoranaRep.d_mul_a (i : ℤ) (hi : i ∈ S) : R.d i * R.a i = (I : K) • R.b i := by
  rw [MajoranaRep.d, neg_mul, smul_mul_assoc, mul_assoc, R.ba i hi i hi, mul_neg, ← mul_assoc, R.a_sq i hi,
    one_mul, smul_neg, neg_neg]

theorem MajoranaRep.d_mul_b (i : ℤ) (hi : i ∈ S) : R.d i * R.b i = -(I : K) • R.a i := by
  rw [MajoranaRep.d, neg_mul, smul_mul_assoc, mul_assoc, R.b_sq i hi, mul_one, neg_smul]

theorem MajoranaRep.a_mul_b (i : ℤ) : R.a i * R.b i = (I : K) • R.d i := by
  rw [MajoranaRep.d, smul_neg, smul_smul, I_mul_I, neg_smul, one_smul, neg_neg]

theorem MajoranaRep.b_mul_a (i : ℤ) (hi : i ∈ S) : R.b i * R.a i = -(I : K) • R.d i := by
  rw [R.ba i hi i hi, R.a_mul_b, neg_smul]

theorem MajoranaRep.d_sq (i : ℤ) (hi : i ∈ S) : R.d i * R.d i = 1 := by
  conv_lhs => rhs; rw [MajoranaRep.d]
  rw [mul_neg, mul_smul_comm, ← mul_assoc, R.d_mul_a i hi, smul_mul_assoc, R.b_sq i hi, smul_smul, I_mul_I,
    neg_smul, one_smul, neg_neg]

theorem MajoranaRep.d_comm (x : 𝔸) (i : ℤ) (ha : R.a i * x = -(x * R.a i)) (hb : R.b i * x = -(x * R.b i)) :
    R.d i * x = x * R.d i := by
  rw [MajoranaRep.d, neg_mul, mul_neg, smul_mul_assoc, mul_smul_comm, mul_assoc, hb, mul_neg, ← mul_assoc, ha,
    neg_mul, neg_neg, mul_assoc]

theorem MajoranaRep.d_comm_d (i : ℤ) (hi : i ∈ S) (j : ℤ) (hj : j ∈ S) (hij : i ≠ j) :
    R.d i * R.d j = R.d j * R.d i := by
  have h1 : R.d i * R.a j = R.a j * R.d i :=
    R.d_comm _ i (R.aa i hi j hj hij) (R.ba i hi j hj)
  have h2 : R.d i * R.b j = R.b j * R.d i :=
    R.d_comm _ i (R.ab i hi j hj) (R.bb i hi j hj hij)
  conv_lhs => rhs; rw [MajoranaRep.d]
  conv_rhs => lhs; rw [MajoranaRep.d]
  rw [mul_neg, neg_mul, mul_smul_comm, smul_mul_assoc, ← mul_assoc, h1, mul_assoc, h2, mul_assoc]

end

/-- the Majorana algebra as a site system -/
def MajoranaRep.sys (R : MajoranaRep K 𝔸 S) : SiteSys K 𝔸 S where
  site := R.site
  ok o := o = .A ∨ o = .B ∨ o = .D
  odd o := o = .A ∨ o = .B
  sq := by
    rintro o (rfl | rfl | rfl) i hi
    · exact R.a_sq i hi
    · exact R.b_sq i hi
    · exact R.d_sq i hi
  mul := by
    rintro o o' (rfl | rfl | rfl) (rfl | rfl | rfl) hne <;> first | exact absurd rfl hne | skip
    · exact ⟨I, .D, rfl, by simp [productDict], by simp, by simp, fun i _ => R.a_mul_b i⟩
    · exact ⟨-I, .B, rfl, by simp [productDict], by simp, by simp, R.a_mul_d⟩
    · exact ⟨-I, .D, rfl, by simp [productDict], by simp, by simp, R.b_mul_a⟩
    · exact ⟨I, .A, rfl, by simp [productDict], by simp, by simp, R.b_mul_d⟩
    · exact ⟨I, .B, rfl, by simp [productDict], by simp, by simp, R.d_mul_a⟩
    · exact ⟨-I, .A, rfl, by simp [productDict], by simp, by simp, R.d_mul_b⟩
  comm := by
    rintro o o' (rfl | rfl | rfl) (rfl | rfl | rfl) i hi j hj hij <;> simp only [MajoranaRep.site] <;> simp
    · exact R.aa i hi j hj hij
    · exact R.ab i hi j hj
    · exact (R.d_comm _ j (R.aa j hj i hi hij.symm) (R.ba j hj i hi)).symm
    · exact R.ba i hi j hj
    · exact R.bb i hi j hj hij
    · exact (R.d_comm _ j (R.ab j hj i hi) (R.bb j hj i hi hij.symm)).symm
    · exact R.d_comm _ i (R.aa i hi j hj hij) (R.ba i hi j hj)
    · exact R.d_comm _ i (R.ab i hi j hj) (R.bb i hi j hj hij)
    · exact R.d_comm_d i hi j hj hij

theorem PauliRep.den_eq (R : PauliRep K 𝔸 S) (s : OpString) :
    R.den s = (s.pref.val : K) • R.sys.prod s.word := by
  rw [PauliRep.den, OpString.word, ← SiteSys.wordProd_eq]; rfl

theorem MajoranaRep.den_eq (R : MajoranaRep K 𝔸 S) (s : OpString) :
    R.den s = (s.pref.val : K) • R.sys.prod s.word := by
  rw [MajoranaRep.den, OpString.word, ← SiteSys.wordProd_eq]; rfl

theorem PauliString.good {R : PauliRep K 𝔸 S} {s : OpString} (h : PauliString S s) : R.sys.Good s :=
  ⟨h.len, h.nodup, h.ops, h.mem⟩

theorem MajoranaString.good {R : MajoranaRep K 𝔸 S} {s : OpString} (h : MajoranaString S s) : R.sys.Good s :=
  ⟨h.len, h.nodup, h.ops, h.mem⟩

theorem Pref.val_of_ne_imag {p : Pref} (h : p ≠ .imag) : (p.val : K) = 1 := by
  cases p <;> simp_all [Pref.val]

theorem PauliString.val {s : OpString} (h : PauliString S s) : (s.pref.val : K) = 1 :=
  Pref.val_of_ne_imag h.pref

theorem Pref.val_phase (p : Pref) : IsPhase (p.val : K) := by
  cases p <;> simp [Pref.val, IsPhase]

/-! ### constructor -/

theorem labelsAB_spec : ∀ {ops : List Op} {labels : List ℤ}, ops.length = labels.length →
    labelsAB ops labels = .ok (((ops.zip labels).filter (fun x => x.1 = .A ∨ x.1 = .B)).map Prod.snd) := by
  intro ops
  induction ops with
  | nil => intro labels h; cases labels <;> simp_all [labelsAB]
  | cons o ops ih =>
    intro labels h
    cases labels with
    | nil => simp at h
    | cons l labels =>
      have := ih (labels := labels) (by simpa using h)
      simp only [labelsAB, this, bind, Except.bind, List.zip_cons_cons, List.filter_cons]
      by_cases h1 : o = .A <;> by_cases h2 : o = .B <;> simp [h1, h2]

theorem length_filter_zip (p : Op → Bool) : ∀ {ops : List Op} {labels : List ℤ}, ops.length = labels.length →
    ((ops.zip labels).filter (fun x => p x.1)).length = (ops.filter p).length := by
  intro ops
  induction ops with
  | nil => intro labels _; simp
  | cons o ops ih =>
    intro labels h
    cases labels with
    | nil => simp at h
    | cons l labels =>
      have := ih (labels := labels) (by simpa using h)
      simp only [List.zip_cons_cons, List.filter_cons]
      split <;> simp_all

/-- number of anticommuting operators -/
def numAB (ops : List Op) : ℕ := (ops.filter (fun op => op = .A ∨ op = .B)).length

theorem mkOpString_pauli (ops : List Op) (labels : List ℤ) :
    mkOpString ops labels .pauli = .ok ⟨ops, labels, .pauli, .float1⟩ := by
  simp [mkOpString, bind, Except.bind, pure, Except.pure]

theorem mkOpString_majorana {ops : List Op} {labels : List ℤ} (h : ops.length = labels.length) :
    mkOpString ops labels .majorana = .ok ⟨ops, labels, .majorana,
      if (numAB ops).choose 2 % 2 = 1 then .imag else .float1⟩ := by
  simp only [mkOpString, if_true, labelsAB_spec h, bind, Except.bind, pure, Except.pure, List.length_map]
  have e := length_filter_zip (fun op => decide (op = .A ∨ op = .B)) h
  rw [e]
  simp only [← Nat.choose_two_right]
  rw [← numAB]
  split <;> simp_all

theorem numAB_eq (R : MajoranaRep K 𝔸 S) {s : OpString} (h : s.ops.length = s.labels.length) :
    (R.sys.oddLabels s.word).length = numAB s.ops := by
  simp only [SiteSys.oddLabels, List.length_map, OpString.word]
  exact length_filter_zip R.sys.odd h

theorem labelsAB_word (R : MajoranaRep K 𝔸 S) {s : OpString} (h : s.ops.length = s.labels.length) :
    labelsAB s.ops s.labels = .ok (R.sys.oddLabels s.word) := by
  rw [labelsAB_spec h]; rfl

/-! ### the algorithm -/

theorem zip_fst_snd {α β : Type} (w : List (α × β)) : (w.map Prod.fst).zip (w.map Prod.snd) = w := by
  induction w with
  | nil => rfl
  | cons x w ih => simp [ih]

theorem tol_lt_one : tolString ≤ 1 := by norm_num [tolString]
theorem tol_pos : 0 < tolString := by norm_num [tolString]

theorem foldlM_loop {R : SiteSys K 𝔸 S} {A B : OpString} (hA : R.Good A) (hB : R.Good B) :
    ∃ (c : K) (n : ℕ) (wC : Word),
      (sortedUnion A.labels B.labels).foldlM (loopStep A B) (⟨1, 0, [], []⟩ : LoopState K) =
        .ok ⟨c, n, wC.map Prod.fst, wC.map Prod.snd⟩ ∧
      (sortedUnion B.labels A.labels).foldlM (loopStep B A) (⟨1, 0, [], []⟩ : LoopState K) =
        .ok ⟨star c, n, wC.map Prod.fst, wC.map Prod.snd⟩ ∧
      R.Ok wC ∧ (wC.map Prod.snd).Sublist (sortedUnion A.labels B.labels) ∧ IsPhase c ∧ star c = (-1) ^ n * c ∧
      R.prod A.word * R.prod B.word = ((-1 : K) ^ inversions (R.oddLabels A.word ++ R.oddLabels B.word) * c) • R.prod wC ∧
      R.prod B.word * R.prod A.word =
        ((-1 : K) ^ inversions (R.oddLabels B.word ++ R.oddLabels A.word) * star c) • R.prod wC ∧
      (A.ops = B.ops → A.labels = B.labels → c = 1 ∧ n = 0 ∧ wC = []) := by
  obtain ⟨c, n, wC, h1, h2, h3, h4, h5, h6, h7, h8, h9⟩ := R.loop_spec hA hB (sortedUnion A.labels B.labels)
    (fun l hl => mem_sortedUnion.mp hl)
  refine ⟨c, n, wC, ?_, ?_, h3, h4, h5, h6, ?_, ?_, h9⟩
  · rw [h1]; simp
  · rw [insertLabel_append_comm_mem B.labels A.labels, h2]; simp
  · rw [R.prod_mul hA hB, h7, smul_smul, R.oddLabels_append]
  · rw [R.prod_mul hB hA, insertLabel_append_comm_mem B.labels A.labels, h8, smul_smul, R.oddLabels_append]

/-- the common shape of the results for two strings: both products are multiples of one string, and the three
modes report them -/
structure OpResult (den : OpString → 𝔸) (Str : OpString → Prop) (A B : OpString) (c c' : K) (C : OpString) : Prop where
  str : Str C
  sorted : C.labels.Pairwise (· < ·)
  sub : ∀ l ∈ C.labels, l ∈ A.labels ∨ l ∈ B.labels
  phase : IsPhase c
  ab : den A * den B = c • den C
  ba : den B * den A = c' • den C
  prod : productS A B = .ok (c, some C)
  brackets : (c' = c ∧ (commutatorS A B : Py (K × _)) = .ok (0, none) ∧ anticommutatorS A B = .ok (c * 2, some C)) ∨
    (c' = -c ∧ commutatorS A B = .ok (c * 2, some C) ∧ (anticommutatorS A B : Py (K × _)) = .ok (0, none))
  pref : C.pref = .imag ∨ C.pref = .float1

theorem pyEq_iff {A B : OpString} : A.pyEq B = true ↔ A.ops = B.ops ∧ A.labels = B.labels ∧ A.opType = B.opType := by
  simp only [OpString.pyEq, Bool.and_eq_true, beq_iff_eq]
  constructor
  · rintro ⟨⟨⟨_, h⟩, h'⟩, h''⟩; exact ⟨h, h', h''⟩
  · rintro ⟨h, h', h''⟩; exact ⟨⟨⟨by rw [h], h⟩, h'⟩, h''⟩

theorem pauli_core (R : PauliRep K 𝔸 S) {A B : OpString} (hA : PauliString S A) (hB : PauliString S B) :
    ∃ (c c' : K) (C : OpString), OpResult R.den (PauliString S) A B c c' C := by
  obtain ⟨c, n, wC, h1, -, h3, h4, h5, h6, h7, h8, h9⟩ := foldlM_loop (hA.good (R := R)) (hB.good (R := R))
  have hodd : ∀ w : Word, R.sys.oddLabels w = [] := by intro w; simp [SiteSys.oddLabels, PauliRep.sys]
  rw [hodd, hodd, List.append_nil, inversions, pow_zero, one_mul] at h7 h8
  let C : OpString := ⟨wC.map Prod.fst, wC.map Prod.snd, .pauli, .float1⟩
  have hCw : C.word = wC := by simp [C, OpString.word, zip_fst_snd]
  have hsorted : (wC.map Prod.snd).Pairwise (· < ·) := (sortedUnion_sorted _ _).sublist h4
  have hC : PauliString S C := by
    refine ⟨rfl, ?_, by simp [C], hsorted.imp (fun h => ne_of_lt h), ?_, by simp [C]⟩
    · intro op hop
      obtain ⟨x, hx, rfl⟩ := List.mem_map.mp hop
      exact (h3 x hx).1
    · intro l hl
      obtain ⟨x, hx, rfl⟩ := List.mem_map.mp hl
      exact (h3 x hx).2
  refine ⟨c, star c, C, ⟨hC, hsorted, ?_, h5, ?_, ?_, ?_, ?_, Or.inr rfl⟩⟩
  · intro l hl; exact mem_sortedUnion.mp (h4.subset hl)
  · rw [R.den_eq, R.den_eq, R.den_eq, hA.val, hB.val, hC.val, hCw]; simpa using h7
  · rw [R.den_eq, R.den_eq, R.den_eq, hA.val, hB.val, hC.val, hCw]; simpa using h8
  · unfold productS operationOpString
    rw [if_neg (by simp [hA.type])]
    by_cases hq : A.pyEq B
    · simp only [hq, and_self, if_true, hA.type, mkOpString_pauli, bind, Except.bind]
      obtain ⟨q1, q2, -⟩ := pyEq_iff.mp hq
      obtain ⟨r1, -, r3⟩ := h9 q1 q2
      simp [C, r1, r3]
    · simp only [hq, and_false, Bool.false_eq_true, if_false, hA.type, bind, Except.bind,
        pure, Except.pure, reduceCtorEq]
      rw [h1]
      simp [h5.absLt_one tol_lt_one, mkOpString_pauli, C, Pref.val]
  · rcases Nat.even_or_odd n with hn | hn
    · left
      rw [hn.neg_one_pow, one_mul] at h6
      have hn' : n % 2 = 0 := Nat.even_iff.mp hn
      refine ⟨h6, ?_, ?_⟩
      · unfold commutatorS operationOpString
        simp only [hA.type, reduceCtorEq, or_false, not_true_eq_false, if_false, false_and, bind, Except.bind,
          pure, Except.pure]
        rw [h1]; simp [hn', absLt_zero tol_pos]
      · unfold anticommutatorS operationOpString
        simp only [hA.type, reduceCtorEq, or_false, not_true_eq_false, if_false, false_and, bind, Except.bind,
          pure, Except.pure]
        rw [h1]; simp [hn', h5.absLt_one tol_lt_one, mkOpString_pauli, C, Pref.val]
    · right
      rw [hn.neg_one_pow, neg_one_mul] at h6
      have hn' : n % 2 = 1 := Nat.odd_iff.mp hn
      refine ⟨h6, ?_, ?_⟩
      · unfold commutatorS operationOpString
        simp only [hA.type, reduceCtorEq, or_false, not_true_eq_false, if_false, false_and, bind, Except.bind,
          pure, Except.pure]
        rw [h1]; simp [hn', h5.absLt_one tol_lt_one, mkOpString_pauli, C, Pref.val]
      · unfold anticommutatorS operationOpString
        simp only [hA.type, reduceCtorEq, or_false, not_true_eq_false, if_false, false_and, bind, Except.bind,
          pure, Except.pure]
        rw [h1]; simp [hn', absLt_zero tol_pos]

theorem cast_sign (n : ℕ) : (((-1 : ℤ) ^ n : ℤ) : K) = (-1) ^ n := by push_cast; ring

theorem sign_phase (n : ℕ) : IsPhase ((-1 : K) ^ n) := by
  rcases neg_one_pow_eq_or K n with h | h <;> rw [h] <;> simp [IsPhase]

theorem sign_or {x y : K} (hx : x = 1 ∨ x = -1) (hy : y = 1 ∨ y = -1) : y = x ∨ y = -x := by
  rcases hx with rfl | rfl <;> rcases hy with rfl | rfl <;> simp

theorem pref_sq (R : MajoranaRep K 𝔸 S) {s t : OpString} (hs : MajoranaString S s) (ht : MajoranaString S t)
    (h1 : s.ops = t.ops) (h2 : s.labels = t.labels) :
    (s.pref.val : K) * t.pref.val * (-1) ^ inversions (R.sys.oddLabels s.word ++ R.sys.oddLabels t.word) = 1 := by
  have hw : t.word = s.word := by simp [OpString.word, h1, h2]
  have hnd : (R.sys.oddLabels s.word).Nodup := by
    have h : (s.word.map Prod.snd).Nodup := by rw [word_map_snd hs.len]; exact hs.nodup
    exact h.sublist (List.filter_sublist.map _)
  have e := inversions_self_append _ hnd
  rw [numAB_eq R hs.len] at e
  rw [hw, ← cast_sign, e, cast_sign]
  by_cases hp : (numAB s.ops).choose 2 % 2 = 1
  · have p1 : s.pref = .imag := hs.pref.mpr hp
    have p2 : t.pref = .imag := ht.pref.mpr (by rw [← h1]; exact hp)
    rw [p1, p2, Odd.neg_one_pow (Nat.odd_iff.mpr hp)]
    simp [Pref.val]
  · have p1 : s.pref ≠ .imag := fun h => hp (hs.pref.mp h)
    have p2 : t.pref ≠ .imag := fun h => hp (by have := ht.pref.mp h; rw [← h1] at this; exact this)
    rw [Pref.val_of_ne_imag p1, Pref.val_of_ne_imag p2, Even.neg_one_pow (Nat.even_iff.mpr (by omega))]
    simp

theorem majorana_core (R : MajoranaRep K 𝔸 S) {A B : OpString} (hA : MajoranaString S A) (hB : MajoranaString S B) :
    ∃ (c c' : K) (C : OpString), OpResult R.den (MajoranaString S) A B c c' C := by
  obtain ⟨c, n, wC, h1, -, h3, h4, h5, h6, h7, h8, h9⟩ := foldlM_loop (hA.good (R := R)) (hB.good (R := R))
  let C : OpString := ⟨wC.map Prod.fst, wC.map Prod.snd, .majorana,
    if (numAB (wC.map Prod.fst)).choose 2 % 2 = 1 then .imag else .float1⟩
  have hmk : mkOpString (wC.map Prod.fst) (wC.map Prod.snd) .majorana = .ok C :=
    mkOpString_majorana (by simp)
  have hCw : C.word = wC := by simp [C, OpString.word, zip_fst_snd]
  have hsorted : (wC.map Prod.snd).Pairwise (· < ·) := (sortedUnion_sorted _ _).sublist h4
  have hC : MajoranaString S C := by
    refine ⟨rfl, ?_, by simp [C], hsorted.imp (fun h => ne_of_lt h), ?_, ?_⟩
    · intro op hop
      obtain ⟨x, hx, rfl⟩ := List.mem_map.mp hop
      exact (h3 x hx).1
    · intro l hl
      obtain ⟨x, hx, rfl⟩ := List.mem_map.mp hl
      exact (h3 x hx).2
    · simp only [C]
      rw [← numAB]
      split <;> simp_all
  set s1 : K := (-1) ^ inversions (R.sys.oddLabels A.word ++ R.sys.oddLabels B.word) with hs1
  set s2 : K := (-1) ^ inversions (R.sys.oddLabels B.word ++ R.sys.oddLabels A.word) with hs2
  set p : K := A.pref.val * B.pref.val with hp
  have hph : IsPhase p := (Pref.val_phase _).mul (Pref.val_phase _)
  have hCp : IsPhase (C.pref.val : K) := Pref.val_phase _
  have hCne := hCp.ne_zero
  -- coefficients computed by the code
  let c1 : K := p * s1 * c
  let c2 : K := p * s2 * star c
  have hc1 : IsPhase c1 := (hph.mul (sign_phase _)).mul h5
  have hrel : c2 = c1 ∨ c2 = -c1 := by
    have hss : s2 = s1 ∨ s2 = -s1 := sign_or (neg_one_pow_eq_or K _) (neg_one_pow_eq_or K _)
    have hcc : star c = c ∨ star c = -c := by
      rcases neg_one_pow_eq_or K n with h | h <;> rw [h6, h] <;> simp
    rcases hss with h | h <;> rcases hcc with h' | h' <;> simp [c1, c2, h, h']
  have hAB : labelsAB A.ops A.labels = .ok (R.sys.oddLabels A.word) := labelsAB_word R hA.len
  have hBB : labelsAB B.ops B.labels = .ok (R.sys.oddLabels B.word) := labelsAB_word R hB.len
  refine ⟨c1 / C.pref.val, c2 / C.pref.val, C, ⟨hC, hsorted, ?_, ?_, ?_, ?_, ?_, ?_, ?_⟩⟩
  · intro l hl; exact mem_sortedUnion.mp (h4.subset hl)
  · rw [div_eq_mul_inv]; exact hc1.mul hCp.inv
  · rw [R.den_eq, R.den_eq, R.den_eq, hCw, smul_mul_smul_comm, h7, smul_smul, smul_smul, div_mul_cancel₀ _ hCne]
    congr 1; simp only [c1, hp]; ring
  · rw [R.den_eq, R.den_eq, R.den_eq, hCw, smul_mul_smul_comm, h8, smul_smul, smul_smul, div_mul_cancel₀ _ hCne]
    congr 1; simp only [c2, hp]; ring
  · unfold productS operationOpString
    rw [if_neg (by simp [hA.type])]
    by_cases hq : A.pyEq B
    · obtain ⟨q1, q2, -⟩ := pyEq_iff.mp hq
      obtain ⟨r1, -, r3⟩ := h9 q1 q2
      have hid : mkOpString [] [] .majorana = .ok C := by rw [← hmk, r3]; rfl
      simp only [hq, and_self, if_true, hA.type, hid, bind, Except.bind]
      have hval : c1 = 1 := by
        simp only [c1, r1, mul_one, hp, hs1]; exact pref_sq R hA hB q1 q2
      have hCv : (C.pref.val : K) = 1 := by simp [C, r3, numAB, Pref.val]
      rw [hval, hCv, div_one]
    · simp only [hq, and_false, Bool.false_eq_true, if_false, hA.type, hB.type, OpString.labelsABOf, hAB, hBB, bind,
        Except.bind, pure, Except.pure, if_true, sortSign_snd, cast_sign, reduceCtorEq]
      rw [h1]
      simp only [true_or, if_true]
      rw [← hp, ← hs1, hc1.absLt_one tol_lt_one, hmk]
      simp [c1]
  · have hstep : ∀ mode : Mode, mode ≠ .product → (operationOpString mode A B : Py (K × Option OpString)) =
        if absLt (if (absGt (c1 - c2) tolString = true ∧ mode = .commutator) ∨
          (absLt (c1 - c2) tolString = true ∧ mode = .anticommutator) then c1 else 0) tolString = true then .ok (0, none)
        else .ok ((if (absGt (c1 - c2) tolString = true ∧ mode = .commutator) ∨
          (absLt (c1 - c2) tolString = true ∧ mode = .anticommutator) then c1 else 0) / C.pref.val * 2, some C) := by
      intro mode hm
      unfold operationOpString
      simp only [hA.type, hB.type, reduceCtorEq, false_or, not_true_eq_false, if_false, hm, false_and, bind, Except.bind,
          pure, Except.pure, OpString.labelsABOf, hAB, hBB, if_true, sortSign_snd, cast_sign]
      rw [h1]
      simp only [ne_eq, hm, not_false_eq_true, if_true, hmk]
      rfl
    rcases hrel with h | h
    · left
      refine ⟨by rw [h], ?_, ?_⟩
      · unfold commutatorS
        rw [hstep _ (by simp), h, sub_self]
        simp [absGt_zero tol_pos.le, absLt_zero tol_pos]
      · unfold anticommutatorS
        rw [hstep _ (by simp), h, sub_self]
        simp [absLt_zero tol_pos, hc1.absLt_one tol_lt_one]
    · right
      have h2 : absGt (c1 - c2) tolString = true := by
        rw [absGt_iff, h, show c1 - -c1 = 2 * c1 by ring, map_mul, norm_mul, hc1.norm, map_ofNat]
        norm_num [tolString]
      refine ⟨by rw [h, neg_div], ?_, ?_⟩
      · unfold commutatorS
        rw [hstep _ (by simp), h2]
        simp [hc1.absLt_one tol_lt_one]
      · unfold anticommutatorS
        rw [hstep _ (by simp), absLt_eq_false_of_absGt h2]
        simp [absLt_zero tol_pos]
  · simp only [C]; split <;> simp

end Qosy
