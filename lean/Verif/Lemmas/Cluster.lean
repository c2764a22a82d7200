import Verif.Lemmas.Basis
import Verif.Lemmas.OperationCore
import Verif.Model.Cluster
import Verif.Spec.Cluster
import Mathlib.Data.List.Sublists
import Mathlib.Data.List.Nodup

/-! # Enumerations behind `cluster_basis` -/

namespace Qosy

section comb
variable {α : Type}

theorem combinations_perm (n : ℕ) (l : List α) : (combinations n l).Perm (l.sublistsLen n) := by
  induction l generalizing n with
  | nil => cases n <;> simp [combinations]
  | cons x xs ih =>
    cases n with
    | zero => simp [combinations]
    | succ n =>
      rw [combinations, List.sublistsLen_succ_cons]
      exact (List.Perm.append ((ih n).map _) (ih (n + 1))).trans List.perm_append_comm

theorem mem_combinations {n : ℕ} {l x : List α} : x ∈ combinations n l ↔ x.Sublist l ∧ x.length = n := by
  rw [(combinations_perm n l).mem_iff, List.mem_sublistsLen]

theorem nodup_combinations {n : ℕ} {l : List α} (h : l.Nodup) : (combinations n l).Nodup :=
  (combinations_perm n l).nodup_iff.mpr (List.nodup_sublistsLen n h)

theorem length_combinations (n : ℕ) (l : List α) : (combinations n l).length = l.length.choose n := by
  rw [(combinations_perm n l).length_eq, List.length_sublistsLen]

theorem mem_productRepeat {l : List α} {n : ℕ} {x : List α} : x ∈ productRepeat l n ↔ x.length = n ∧ ∀ a ∈ x, a ∈ l := by
  induction n generalizing x with
  | zero => simp [productRepeat]; rintro rfl; simp
  | succ n ih =>
    simp only [productRepeat, List.mem_flatMap, List.mem_map]
    constructor
    · rintro ⟨a, ha, y, hy, rfl⟩
      obtain ⟨h1, h2⟩ := ih.mp hy
      exact ⟨by simp [h1], by intro b hb; rcases List.mem_cons.mp hb with rfl | hb; exacts [ha, h2 b hb]⟩
    · rintro ⟨h1, h2⟩
      cases x with
      | nil => simp at h1
      | cons a y =>
        exact ⟨a, h2 a (List.mem_cons_self ..), y, ih.mpr ⟨by simpa using h1, fun b hb => h2 b (List.mem_cons_of_mem _ hb)⟩, rfl⟩

theorem nodup_productRepeat {l : List α} (h : l.Nodup) (n : ℕ) : (productRepeat l n).Nodup := by
  induction n with
  | zero => simp [productRepeat]
  | succ n ih =>
    rw [productRepeat, List.nodup_flatMap]
    refine ⟨fun a _ => ih.map (fun x y hxy => by simpa using hxy), ?_⟩
    refine h.imp ?_
    intro a b hab x hx hx'
    obtain ⟨y, _, rfl⟩ := List.mem_map.mp hx
    obtain ⟨z, _, hz⟩ := List.mem_map.mp hx'
    simp at hz
    exact hab hz.1.symm

theorem length_productRepeat (l : List α) (n : ℕ) : (productRepeat l n).length = l.length ^ n := by
  induction n with
  | zero => simp [productRepeat]
  | succ n ih => rw [productRepeat, List.length_flatMap]; simp [ih, pow_succ, mul_comm]

end comb

/-! ### folds that only append -/

theorem foldlM_append {α β : Type} (F : List β → α → Py (List β)) (L : α → List β) :
    ∀ (xs : List α) (st : List β), (∀ x ∈ xs, ∀ st : List β, (st ++ L x).Nodup → F st x = .ok (st ++ L x)) →
      (st ++ xs.flatMap L).Nodup → xs.foldlM F st = .ok (st ++ xs.flatMap L) := by
  intro xs
  induction xs with
  | nil => intro st _ _; simp; rfl
  | cons x xs ih =>
    intro st h hn
    rw [List.flatMap_cons, ← List.append_assoc] at hn
    rw [List.foldlM_cons, h x (List.mem_cons_self ..) st (List.nodup_append.mp hn).1]
    simp only [bind, Except.bind]
    rw [ih _ (fun y hy => h y (List.mem_cons_of_mem _ hy)) hn, List.flatMap_cons, List.append_assoc]

theorem clusterAdd_ok {t : OpType} {ops : List Op} {labels : List ℤ} {pref : Pref} {s : OpString}
    (h : mkOpString ops labels t (some pref) = .ok s) {st : List OpString} (hn : (st ++ [s]).Nodup) :
    clusterAdd t ops labels pref st = .ok (st ++ [s]) := by
  rw [clusterAdd, h]
  simp only [bind, Except.bind]
  rw [if_neg]
  rw [Bool.not_eq_true, List.any_eq_false]
  intro s' hs' hk
  rw [sameKey_iff_eq] at hk
  exact (List.nodup_append.mp hn).2.2 s' hs' s (by simp) hk

/-- the labels of a cluster in order -/
theorem cluster_sorted {l : List ℤ} (h : l.Nodup) : (l.insertionSort (· ≤ ·)).Pairwise (· < ·) := by
  have h1 := List.pairwise_insertionSort (· ≤ ·) l
  have h2 : (l.insertionSort (· ≤ ·)).Nodup := (List.perm_insertionSort (· ≤ ·) l).nodup_iff.mpr h
  exact (h1.and h2).imp (fun h => lt_of_le_of_ne h.1 h.2)

/-- sorted lists with members in a sorted list are its sublists -/
theorem sublist_iff_subset {c l : List ℤ} (hc : c.Pairwise (· < ·)) : l.Sublist c ↔ l.Pairwise (· < ·) ∧ ∀ x ∈ l, x ∈ c := by
  constructor
  · intro h; exact ⟨hc.sublist h, fun x hx => h.subset hx⟩
  · rintro ⟨h1, h2⟩
    apply List.sublist_of_subperm_of_pairwise (r := (· < ·))
    · exact List.subperm_of_subset (h1.imp ne_of_lt) h2
    · exact h1
    · exact hc

theorem npMax_spec {l : List ℤ} (h : l ≠ []) : ∃ m, npMax l = .ok m ∧ m ∈ l ∧ ∀ x ∈ l, x ≤ m := by
  cases l with
  | nil => exact absurd rfl h
  | cons x xs =>
    refine ⟨xs.foldl max x, rfl, ?_⟩
    clear h
    induction xs generalizing x with
    | nil => simp
    | cons y ys ih =>
      obtain ⟨h1, h2⟩ := ih (max x y)
      refine ⟨?_, ?_⟩
      · rw [List.foldl_cons]
        rcases List.mem_cons.mp h1 with h | h
        · rw [h]; rcases max_choice x y with h' | h' <;> rw [h'] <;> simp
        · exact List.mem_cons_of_mem _ (List.mem_cons_of_mem _ h)
      · intro z hz
        rw [List.foldl_cons]
        rcases List.mem_cons.mp hz with rfl | hz
        · exact (le_max_left _ _).trans (h2 _ (List.mem_cons_self ..))
        · rcases List.mem_cons.mp hz with rfl | hz
          · exact (le_max_right _ _).trans (h2 _ (List.mem_cons_self ..))
          · exact h2 z (List.mem_cons_of_mem _ hz)

/-- all strings with a given number of operators -/
def spinList (mk : List Op → List ℤ → OpString) (orbitalOps : List Op) (cluster allowed : List ℤ) (n : ℕ) : List OpString :=
  if (n : ℤ) ∈ allowed then (combinations n cluster).flatMap (fun labels => (productRepeat orbitalOps n).flatMap (fun ops => [mk ops labels]))
  else []

theorem mem_spinList {mk : List Op → List ℤ → OpString} {orbitalOps : List Op} {cluster allowed : List ℤ} {n : ℕ} {s : OpString} :
    s ∈ spinList mk orbitalOps cluster allowed n ↔ (n : ℤ) ∈ allowed ∧ ∃ labels ops, labels.Sublist cluster ∧ labels.length = n ∧
      ops.length = n ∧ (∀ o ∈ ops, o ∈ orbitalOps) ∧ s = mk ops labels := by
  unfold spinList
  split
  · rename_i h
    simp only [List.mem_flatMap, mem_combinations, mem_productRepeat, List.mem_singleton, h, true_and]
    constructor
    · rintro ⟨l, ⟨h1, h2⟩, o, ⟨h3, h4⟩, h5⟩; exact ⟨l, o, h1, h2, h3, h4, h5⟩
    · rintro ⟨l, o, h1, h2, h3, h4, h5⟩; exact ⟨l, ⟨h1, h2⟩, o, ⟨h3, h4⟩, h5⟩
  · rename_i h; simp [h]

theorem spinLists_nodup {mk : List Op → List ℤ → OpString} (hmk : ∀ o l, (mk o l).ops = o ∧ (mk o l).labels = l) {orbitalOps : List Op}
    (ho : orbitalOps.Nodup) {cluster allowed : List ℤ} (hc : cluster.Nodup) {nums : List ℕ} (hn : nums.Nodup) :
    (nums.flatMap (spinList mk orbitalOps cluster allowed)).Nodup := by
  rw [List.nodup_flatMap]
  constructor
  · intro n _
    unfold spinList
    split
    · rw [List.nodup_flatMap]
      refine ⟨?_, ?_⟩
      · intro l _
        rw [List.nodup_flatMap]
        refine ⟨fun _ _ => by simp, (nodup_productRepeat ho n).imp ?_⟩
        intro a b hab x hx hx'
        simp only [List.mem_singleton] at hx hx'
        apply hab
        rw [← (hmk a l).1, ← hx, hx', (hmk b l).1]
      · refine (nodup_combinations hc).imp ?_
        intro a b hab x hx hx'
        simp only [List.mem_flatMap, List.mem_singleton] at hx hx'
        obtain ⟨o, _, rfl⟩ := hx
        obtain ⟨o', _, e⟩ := hx'
        apply hab
        rw [← (hmk o a).2, e, (hmk o' b).2]
    · simp
  · refine hn.imp ?_
    intro a b hab x hx hx'
    rw [mem_spinList] at hx hx'
    obtain ⟨_, l, o, _, h1, _, _, rfl⟩ := hx
    obtain ⟨_, l', o', _, h1', _, _, e⟩ := hx'
    apply hab
    rw [← h1, ← h1', ← (hmk o l).2, e, (hmk o' l').2]

theorem clusterSpin_ok {t : OpType} {orbitalOps : List Op} {cluster allowed : List ℤ} {mk : List Op → List ℤ → OpString}
    (hmk : ∀ ops labels, ops.length = labels.length → mkOpString ops labels t (some .float1) = .ok (mk ops labels)) (n : ℕ)
    (st : List OpString) (hn : (st ++ spinList mk orbitalOps cluster allowed n).Nodup) :
    clusterSpin t orbitalOps cluster allowed st n = .ok (st ++ spinList mk orbitalOps cluster allowed n) := by
  unfold clusterSpin spinList at *
  split
  · rename_i h
    rw [if_pos h] at hn
    refine foldlM_append _ _ _ _ ?_ hn
    intro labels hl st hn
    refine foldlM_append _ _ _ _ ?_ hn
    intro ops ho st hn
    rw [mem_combinations] at hl
    rw [mem_productRepeat] at ho
    exact clusterAdd_ok (hmk ops labels (by rw [hl.2, ho.1])) hn
  · simp

/-- the numbers of operators the loops run over are the allowed ones up to the size of the cluster -/
theorem clusterNums {allowed : List ℤ} {m : ℤ} (hm : ∀ x ∈ allowed, x ≤ m) (N : ℕ) {n : ℕ} (hn : (n : ℤ) ∈ allowed) :
    n ∈ List.range' 1 (min (N : ℤ) m).toNat ↔ 1 ≤ n ∧ n ≤ N := by
  rw [List.mem_range'_1]
  have := hm _ hn
  omega

theorem spinList_length {mk : List Op → List ℤ → OpString} {orbitalOps : List Op} {cluster allowed : List ℤ} (n : ℕ) :
    (spinList mk orbitalOps cluster allowed n).length = if (n : ℤ) ∈ allowed then cluster.length.choose n * orbitalOps.length ^ n else 0 := by
  unfold spinList
  split
  · simp [List.length_flatMap, length_combinations, length_productRepeat]
  · rfl

theorem clusterSpin_fold {t : OpType} {orbitalOps : List Op} (ho : orbitalOps.Nodup) {cluster allowed : List ℤ} (hc : cluster.Nodup)
    {mk : List Op → List ℤ → OpString} (hmk : ∀ ops labels, ops.length = labels.length → mkOpString ops labels t (some .float1) = .ok (mk ops labels))
    (hmk' : ∀ o l, (mk o l).ops = o ∧ (mk o l).labels = l) {nums : List ℕ} (hn : nums.Nodup) (h1 : ∀ n ∈ nums, 1 ≤ n) {st : List OpString} (hst : st.Nodup)
    (hst0 : ∀ s ∈ st, s.labels = []) :
    nums.foldlM (clusterSpin t orbitalOps cluster allowed) st = .ok (st ++ nums.flatMap (spinList mk orbitalOps cluster allowed)) ∧
      (st ++ nums.flatMap (spinList mk orbitalOps cluster allowed)).Nodup := by
  have hnd : (st ++ nums.flatMap (spinList mk orbitalOps cluster allowed)).Nodup := by
    rw [List.nodup_append]
    refine ⟨hst, spinLists_nodup hmk' ho hc hn, ?_⟩
    intro a ha b hb e
    subst e
    obtain ⟨n, hn', hb⟩ := List.mem_flatMap.mp hb
    rw [mem_spinList] at hb
    obtain ⟨_, l, o, _, h2, _, _, rfl⟩ := hb
    have := hst0 _ ha
    rw [(hmk' o l).2] at this
    have := h1 n hn'
    subst l
    simp at h2
    omega
  exact ⟨foldlM_append _ _ _ _ (fun n _ st hn => clusterSpin_ok hmk n st hn) hnd, hnd⟩

/-- the strings `cluster_basis` starts from -/
def idList (t : OpType) (incl : Bool) : List OpString := if incl then [identityString t] else []

theorem spin_cluster {t : OpType} (ht : t = .pauli ∨ t = .majorana) {orbitalOps : List Op} (ho : orbitalOps = if t = .pauli then pauliOps else majoranaOps)
    {mk : List Op → List ℤ → OpString} (hmk : ∀ ops labels, ops.length = labels.length → mkOpString ops labels t (some .float1) = .ok (mk ops labels))
    (hmk' : ∀ o l, (mk o l).ops = o ∧ (mk o l).labels = l) (hid : mk [] [] = identityString t)
    {k : KArg} {allowed : List ℤ} (hk : k.allowedList = .ok allowed) (hne : allowed ≠ []) {labels : List ℤ} (hl : labels.Nodup) (incl : Bool) :
    ∃ strs, clusterBasis k labels t incl = .ok (Basis.ofList strs) ∧ strs.Nodup ∧
      (∀ s, s ∈ strs ↔ (incl = true ∧ s = identityString t) ∨ ∃ ls ops, ls ≠ [] ∧ (ls.length : ℤ) ∈ allowed ∧ ls.Pairwise (· < ·) ∧
        (∀ x ∈ ls, x ∈ labels) ∧ ops.length = ls.length ∧ (∀ o ∈ ops, o ∈ orbitalOps) ∧ s = mk ops ls) ∧
      strs.length = (if incl then 1 else 0) + ∑ n ∈ Finset.Icc 1 labels.length, if (n : ℤ) ∈ allowed then labels.length.choose n * 3 ^ n else 0 := by
  obtain ⟨m, m1, m2, m3⟩ := npMax_spec hne
  have hol : orbitalOps.Nodup ∧ orbitalOps.length = 3 := by
    rw [ho]; split <;> exact ⟨by decide, rfl⟩
  have hcp := List.perm_insertionSort (· ≤ ·) labels
  have hcs := cluster_sorted hl
  have hclen : (labels.insertionSort (· ≤ ·)).length = labels.length := List.length_insertionSort ..
  have hcn : (labels.insertionSort (· ≤ ·)).Nodup := hcp.nodup_iff.mpr hl
  set nums := List.range' 1 (min (labels.length : ℤ) m).toNat with hnums
  obtain ⟨f1, f2⟩ := clusterSpin_fold (allowed := allowed) (t := t) hol.1 hcn hmk hmk' (nums := nums) List.nodup_range'
    (fun n hn => by rw [hnums, List.mem_range'_1] at hn; exact hn.1)
    (st := idList t incl) (by unfold idList; split <;> simp) (by intro s hs; unfold idList at hs; split at hs <;> simp at hs; rw [hs]; rfl)
  refine ⟨_, ?_, f2, ?_, ?_⟩
  · have hidmk : mkOpString [] [] t = .ok (identityString t) := by rw [← hid]; exact hmk [] [] rfl
    have hst : clusterInit t incl = .ok (idList t incl) := by
      cases incl <;> simp [clusterInit, idList, hidmk, bind, Except.bind]
    simp only [clusterBasis, hk, m1, hclen, hst, bind, Except.bind]
    rcases ht with rfl | rfl
    · simp only [if_true] at ho
      subst ho
      simp only [clusterLoop]
      rw [← hnums, f1]
      exact mkBasis_ok f2
    · simp only [reduceCtorEq, if_false] at ho
      subst ho
      simp only [clusterLoop]
      rw [← hnums, f1]
      exact mkBasis_ok f2
  · intro s
    rw [List.mem_append, List.mem_flatMap]
    apply or_congr
    · unfold idList; cases incl <;> simp
    · constructor
      · rintro ⟨n, hn, hs⟩
        obtain ⟨h1, l, o, h2, h3, h4, h5, h6⟩ := mem_spinList.mp hs
        rw [clusterNums m3 _ h1] at hn
        rw [sublist_iff_subset hcs] at h2
        refine ⟨l, o, ?_, by rw [h3]; exact h1, h2.1, fun x hx => hcp.mem_iff.mp (h2.2 x hx), by rw [h3, h4], h5, h6⟩
        rintro rfl; simp at h3; omega
      · rintro ⟨l, o, h0, h1, h2, h3, h4, h5, h6⟩
        have hsub : l.Sublist (labels.insertionSort (· ≤ ·)) := (sublist_iff_subset hcs).mpr ⟨h2, fun x hx => hcp.mem_iff.mpr (h3 x hx)⟩
        refine ⟨l.length, ?_, mem_spinList.mpr ⟨h1, l, o, hsub, rfl, h4, h5, h6⟩⟩
        rw [clusterNums m3 _ h1]
        exact ⟨List.length_pos_iff.mpr h0, by have := hsub.length_le; omega⟩
  · rw [List.length_append, List.length_flatMap]
    congr 1
    · unfold idList; split <;> simp
    · simp only [spinList_length, hclen, hol.2]
      have : (List.map (fun n : ℕ => if (n : ℤ) ∈ allowed then labels.length.choose n * 3 ^ n else 0) nums).sum =
          ∑ n ∈ nums.toFinset, if (n : ℤ) ∈ allowed then labels.length.choose n * 3 ^ n else 0 :=
        (List.sum_toFinset _ List.nodup_range').symm
      rw [this]
      apply Finset.sum_subset
      · intro n hn
        rw [List.mem_toFinset, hnums, List.mem_range'_1] at hn
        rw [Finset.mem_Icc]; omega
      · intro n hn hn'
        rw [if_neg]
        intro hmem
        apply hn'
        rw [List.mem_toFinset, hnums, clusterNums m3 _ hmem]
        exact Finset.mem_Icc.mp hn

/-! ### Fermion strings -/

/-- `combinations` of an increasing list come in lexicographic order -/
theorem combinations_lex (n : ℕ) {l : List ℤ} (h : l.Pairwise (· < ·)) : (combinations n l).Pairwise (· < ·) := by
  induction l generalizing n with
  | nil => cases n <;> simp [combinations]
  | cons x xs ih =>
    rw [List.pairwise_cons] at h
    cases n with
    | zero => simp [combinations]
    | succ n =>
      rw [combinations, List.pairwise_append]
      refine ⟨?_, ih _ h.2, ?_⟩
      · rw [List.pairwise_map]
        exact (ih n h.2).imp (fun h => List.cons_lt_cons_iff.mpr (Or.inr ⟨rfl, h⟩))
      · intro a ha b hb
        obtain ⟨y, _, rfl⟩ := List.mem_map.mp ha
        obtain ⟨hb1, hb2⟩ := mem_combinations.mp hb
        cases b with
        | nil => simp at hb2
        | cons z zs => exact List.cons_lt_cons_iff.mpr (Or.inl (h.1 z (hb1.subset (List.mem_cons_self ..))))

theorem mem_take_iff {L : List (List ℤ)} (h : L.Pairwise (· < ·)) {i : ℕ} {F : List ℤ} (hF : L[i]? = some F) {B : List ℤ} :
    B ∈ L.take i ↔ B ∈ L ∧ B < F := by
  have hi : i < L.length := by
    by_contra hge; rw [List.getElem?_eq_none (by omega)] at hF; simp at hF
  rw [List.getElem?_eq_getElem hi] at hF
  simp only [Option.some.injEq] at hF
  rw [List.pairwise_iff_getElem] at h
  constructor
  · intro hB
    obtain ⟨j, hj, rfl⟩ := List.getElem_of_mem hB
    have hj' : j < i := by simp at hj; omega
    rw [List.getElem_take]
    exact ⟨List.getElem_mem _, by rw [← hF]; exact h j i (by omega) hi hj'⟩
  · rintro ⟨hB, hlt⟩
    obtain ⟨j, hj, rfl⟩ := List.getElem_of_mem hB
    have : j < i := by
      by_contra hge
      rcases Nat.lt_or_ge i j with h' | h'
      · have := h i j hi hj h'
        rw [hF] at this
        exact lt_asymm this hlt
      · have : j = i := by omega
        subst this
        rw [hF] at hlt
        exact lt_irrefl _ hlt
    rw [List.mem_iff_getElem]
    exact ⟨j, by simp; omega, by rw [List.getElem_take]⟩

theorem hopString_inj {F B F' B' : List ℤ} {p p' : Pref} (h : hopString F B p = hopString F' B' p') : F = F' ∧ B = B' ∧ p = p' := by
  simp only [hopString, OpString.mk.injEq, true_and] at h
  obtain ⟨h1, h2, h3⟩ := h
  have hlen : F.length = F'.length := by
    have := congrArg (List.count Op.CDag) h1
    simpa [List.count_append, List.count_replicate] using this
  obtain ⟨h4, h5⟩ := List.append_inj h2 hlen
  exact ⟨h4, h5, h3⟩

theorem mkOpString_fermion (ops : List Op) (labels : List ℤ) (p : Pref) : mkOpString ops labels .fermion (some p) = .ok ⟨ops, labels, .fermion, p⟩ := by
  cases p <;> simp [mkOpString, bind, Except.bind, pure, Except.pure]

/-- all strings of types 2 and 3 with the given forward labels -/
def hopList (cluster : List ℤ) (m : ℕ) (f : List ℤ × ℕ) : List OpString :=
  (List.range (m + 1)).flatMap (fun l => [Pref.float1, Pref.imag].flatMap (fun p =>
    ((combinations l cluster).take (if l = m then f.2 else (combinations l cluster).length)).flatMap (fun B => [hopString f.1 B p])))

/-- all Fermion strings with a given number of creation operators -/
def fermionList (cluster allowed : List ℤ) (m : ℕ) : List OpString :=
  if (m : ℤ) ∈ allowed then
    (combinations m cluster).flatMap (fun F => [hopString F F.reverse .float1]) ++ (combinations m cluster).zipIdx.flatMap (hopList cluster m)
  else []

theorem mem_hopList {cluster : List ℤ} (hc : cluster.Pairwise (· < ·)) {m i : ℕ} {F : List ℤ} (hF : (combinations m cluster)[i]? = some F) {s : OpString} :
    s ∈ hopList cluster m (F, i) ↔ ∃ B p, B.Sublist cluster ∧ (B.length < m ∨ B.length = m ∧ B < F) ∧ (p = .float1 ∨ p = .imag) ∧ s = hopString F B p := by
  simp only [hopList, List.mem_flatMap, List.mem_range, List.mem_cons, List.not_mem_nil, or_false]
  constructor
  · rintro ⟨l, hl, p, hp, B, hB, rfl⟩
    refine ⟨B, p, ?_⟩
    by_cases hlm : l = m
    · subst hlm
      rw [if_pos rfl, mem_take_iff (combinations_lex _ hc) hF, mem_combinations] at hB
      exact ⟨hB.1.1, Or.inr ⟨hB.1.2, hB.2⟩, hp, rfl⟩
    · rw [if_neg hlm, List.take_length, mem_combinations] at hB
      exact ⟨hB.1, Or.inl (by omega), hp, rfl⟩
  · rintro ⟨B, p, h1, h2, h3, rfl⟩
    refine ⟨B.length, by omega, p, h3, B, ?_, rfl⟩
    by_cases hlm : B.length = m
    · rw [if_pos hlm, hlm, mem_take_iff (combinations_lex _ hc) hF, mem_combinations]
      exact ⟨⟨h1, hlm⟩, by rcases h2 with h | h; omega; exact h.2⟩
    · rw [if_neg hlm, List.take_length, mem_combinations]
      exact ⟨h1, rfl⟩

theorem hopList_nodup {cluster : List ℤ} (hc : cluster.Pairwise (· < ·)) (m : ℕ) (f : List ℤ × ℕ) : (hopList cluster m f).Nodup := by
  unfold hopList
  rw [List.nodup_flatMap]
  refine ⟨?_, ?_⟩
  · intro l _
    rw [List.nodup_flatMap]
    refine ⟨?_, ?_⟩
    · intro p _
      rw [List.nodup_flatMap]
      refine ⟨fun _ _ => by simp, ?_⟩
      have : (combinations l cluster).Nodup := nodup_combinations (hc.imp ne_of_lt)
      refine (this.sublist (List.take_sublist ..)).imp ?_
      intro a b hab x hx hx'
      simp only [List.mem_singleton] at hx hx'
      rw [hx] at hx'
      exact hab (hopString_inj hx').2.1
    · simp only [List.pairwise_cons, List.mem_singleton, forall_eq, List.not_mem_nil, false_imp_iff, implies_true, List.Pairwise.nil, and_true]
      intro x hx hx'
      simp only [List.mem_flatMap, List.mem_singleton] at hx hx'
      obtain ⟨_, _, rfl⟩ := hx
      obtain ⟨_, _, e⟩ := hx'
      have := (hopString_inj e).2.2
      simp at this
  · refine List.nodup_range.imp ?_
    intro a b hab x hx hx'
    simp only [List.mem_flatMap, List.mem_singleton] at hx hx'
    obtain ⟨_, _, B, hB, rfl⟩ := hx
    obtain ⟨_, _, B', hB', e⟩ := hx'
    have h1 := (mem_combinations.mp (List.mem_of_mem_take hB)).2
    have h2 := (mem_combinations.mp (List.mem_of_mem_take hB')).2
    rw [(hopString_inj e).2.1] at h1
    exact hab (h1.symm.trans h2)

theorem mem_zipIdx_iff {α : Type} {l : List α} {p : α × ℕ} : p ∈ l.zipIdx ↔ l[p.2]? = some p.1 := by
  obtain ⟨x, i⟩ := p
  rw [List.mk_mem_zipIdx_iff_getElem?]

theorem mem_fermionList {cluster allowed : List ℤ} (hc : cluster.Pairwise (· < ·)) {m : ℕ} {s : OpString} :
    s ∈ fermionList cluster allowed m ↔ (m : ℤ) ∈ allowed ∧ ∃ F, F.Sublist cluster ∧ F.length = m ∧ (s = hopString F F.reverse .float1 ∨
      ∃ B p, B.Sublist cluster ∧ (B.length < m ∨ B.length = m ∧ B < F) ∧ (p = .float1 ∨ p = .imag) ∧ s = hopString F B p) := by
  unfold fermionList
  split
  · rename_i h
    simp only [h, true_and, List.mem_append, List.mem_flatMap, List.mem_singleton]
    constructor
    · rintro (⟨F, hF, rfl⟩ | ⟨⟨F, i⟩, hF, hs⟩)
      · have := mem_combinations.mp hF
        exact ⟨F, this.1, this.2, Or.inl rfl⟩
      · rw [mem_zipIdx_iff] at hF
        have := mem_combinations.mp (List.mem_of_getElem? hF)
        exact ⟨F, this.1, this.2, Or.inr ((mem_hopList hc hF).mp hs)⟩
    · rintro ⟨F, h1, h2, h3⟩
      have hF : F ∈ combinations m cluster := mem_combinations.mpr ⟨h1, h2⟩
      rcases h3 with h3 | h3
      · exact Or.inl ⟨F, hF, h3⟩
      · obtain ⟨i, hi⟩ := List.getElem?_of_mem hF
        exact Or.inr ⟨(F, i), mem_zipIdx_iff.mpr hi, (mem_hopList hc hi).mpr h3⟩
  · rename_i h; simp [h]

theorem sorted_perm_eq {a b : List ℤ} (ha : a.Pairwise (· < ·)) (hb : b.Pairwise (· < ·)) (h : a.Perm b) : a = b :=
  List.Perm.eq_of_pairwise (fun _ _ _ _ h1 h2 => absurd h1 (lt_asymm h2)) ha hb h

theorem fermionList_nodup {cluster allowed : List ℤ} (hc : cluster.Pairwise (· < ·)) (m : ℕ) : (fermionList cluster allowed m).Nodup := by
  unfold fermionList
  split
  · have hcn : (combinations m cluster).Nodup := nodup_combinations (hc.imp ne_of_lt)
    rw [List.nodup_append]
    refine ⟨?_, ?_, ?_⟩
    · rw [List.nodup_flatMap]
      refine ⟨fun _ _ => by simp, hcn.imp ?_⟩
      intro a b hab x hx hx'
      simp only [List.mem_singleton] at hx hx'
      rw [hx] at hx'
      exact hab (hopString_inj hx').1
    · rw [List.nodup_flatMap]
      refine ⟨fun f _ => hopList_nodup hc m f, ?_⟩
      rw [List.pairwise_iff_getElem]
      intro i j hi hj hij x hx hx'
      simp only [List.length_zipIdx] at hi hj
      have ei : ((combinations m cluster).zipIdx)[i] = ((combinations m cluster)[i], i) := by simp
      have ej : ((combinations m cluster).zipIdx)[j] = ((combinations m cluster)[j], j) := by simp
      rw [ei] at hx
      rw [ej] at hx'
      obtain ⟨B, p, _, _, _, rfl⟩ := (mem_hopList hc (List.getElem?_eq_getElem hi)).mp hx
      obtain ⟨B', p', _, _, _, e⟩ := (mem_hopList hc (List.getElem?_eq_getElem hj)).mp hx'
      have := (List.Nodup.getElem_inj_iff hcn).mp (hopString_inj e).1
      omega
    · intro a ha b hb e
      subst e
      simp only [List.mem_flatMap, List.mem_singleton] at ha hb
      obtain ⟨F, hF, rfl⟩ := ha
      obtain ⟨⟨F', i⟩, hF', hs⟩ := hb
      rw [mem_zipIdx_iff] at hF'
      obtain ⟨B, p, h1, h2, _, e⟩ := (mem_hopList hc hF').mp hs
      obtain ⟨e1, e2, _⟩ := hopString_inj e
      have hF2 := mem_combinations.mp hF
      rw [← e2] at h1 h2
      rw [List.length_reverse, hF2.2] at h2
      rcases h2 with h2 | h2
      · omega
      · have := sorted_perm_eq (hc.sublist h1) (hc.sublist hF2.1) (List.reverse_perm _)
        rw [this, e1] at h2
        exact lt_irrefl _ h2.2
  · simp

theorem fermionLists_nodup {cluster allowed : List ℤ} (hc : cluster.Pairwise (· < ·)) {nums : List ℕ} (hn : nums.Nodup) :
    (nums.flatMap (fermionList cluster allowed)).Nodup := by
  rw [List.nodup_flatMap]
  refine ⟨fun m _ => fermionList_nodup hc m, hn.imp ?_⟩
  intro a b hab x hx hx'
  obtain ⟨_, F, _, h1, h2⟩ := (mem_fermionList hc).mp hx
  obtain ⟨_, F', _, h1', h2'⟩ := (mem_fermionList hc).mp hx'
  have e1 : ∃ B p, x = hopString F B p := by
    rcases h2 with h2 | ⟨B, p, _, _, _, h2⟩
    · exact ⟨_, _, h2⟩
    · exact ⟨_, _, h2⟩
  have e2 : ∃ B p, x = hopString F' B p := by
    rcases h2' with h2 | ⟨B, p, _, _, _, h2⟩
    · exact ⟨_, _, h2⟩
    · exact ⟨_, _, h2⟩
  obtain ⟨B, p, e1⟩ := e1
  obtain ⟨B', p', e2⟩ := e2
  rw [e1] at e2
  have := (hopString_inj e2).1
  apply hab
  rw [← h1, ← h1', this]

theorem clusterFermion_ok {cluster allowed : List ℤ} (m : ℕ) (st : List OpString) (hn : (st ++ fermionList cluster allowed m).Nodup) :
    clusterFermion cluster allowed st m = .ok (st ++ fermionList cluster allowed m) := by
  unfold clusterFermion fermionList at *
  split
  · rename_i h
    rw [if_pos h, ← List.append_assoc] at hn
    have h1 := foldlM_append (fun st labels => clusterFermion1 labels st) (fun F => [hopString F F.reverse .float1]) (combinations m cluster) st ?_
      (List.nodup_append.mp hn).1
    · rw [h1]
      simp only [bind, Except.bind]
      rw [← List.append_assoc]
      refine foldlM_append _ _ _ _ ?_ hn
      intro f hf st hn
      unfold clusterFermion2
      refine foldlM_append _ _ _ _ ?_ hn
      intro l _ st hn
      refine foldlM_append _ _ _ _ ?_ hn
      intro p _ st hn
      refine foldlM_append _ _ _ _ ?_ hn
      intro B _ st hn
      exact clusterAdd_ok (mkOpString_fermion ..) hn
    · intro F _ st hn
      refine clusterAdd_ok ?_ hn
      rw [mkOpString_fermion, hopString, List.length_reverse]
  · simp

theorem fermion_cluster {k : KArg} {allowed : List ℤ} (hk : k.allowedList = .ok allowed) (hne : allowed ≠ []) {labels : List ℤ} (hl : labels.Nodup) (incl : Bool) :
    ∃ strs, clusterBasis k labels .fermion incl = .ok (Basis.ofList strs) ∧ strs.Nodup ∧
      (∀ s, s ∈ strs ↔ (incl = true ∧ s = identityString .fermion) ∨ ∃ F, F ≠ [] ∧ (F.length : ℤ) ∈ allowed ∧ F.Pairwise (· < ·) ∧
        (∀ x ∈ F, x ∈ labels) ∧ (s = hopString F F.reverse .float1 ∨ ∃ B p, B.Pairwise (· < ·) ∧ (∀ x ∈ B, x ∈ labels) ∧
          (B.length < F.length ∨ B.length = F.length ∧ B < F) ∧ (p = .float1 ∨ p = .imag) ∧ s = hopString F B p)) := by
  obtain ⟨m, m1, m2, m3⟩ := npMax_spec hne
  have hcp := List.perm_insertionSort (· ≤ ·) labels
  have hcs := cluster_sorted hl
  have hclen : (labels.insertionSort (· ≤ ·)).length = labels.length := List.length_insertionSort ..
  set nums := List.range' 1 (min (labels.length : ℤ) m).toNat with hnums
  have hsub : ∀ l : List ℤ, l.Sublist (labels.insertionSort (· ≤ ·)) ↔ l.Pairwise (· < ·) ∧ ∀ x ∈ l, x ∈ labels := by
    intro l
    rw [sublist_iff_subset hcs]
    simp only [hcp.mem_iff]
  have hnd : (idList .fermion incl ++ nums.flatMap (fermionList (labels.insertionSort (· ≤ ·)) allowed)).Nodup := by
    rw [List.nodup_append]
    refine ⟨by unfold idList; split <;> simp, fermionLists_nodup hcs List.nodup_range', ?_⟩
    intro a ha b hb e
    subst e
    obtain ⟨n, hn', hb⟩ := List.mem_flatMap.mp hb
    obtain ⟨_, F, _, h1, h2⟩ := (mem_fermionList hcs).mp hb
    rw [hnums, List.mem_range'_1] at hn'
    have ha' : a.labels = [] := by
      unfold idList at ha; split at ha
      · rw [List.mem_singleton.mp ha]; rfl
      · simp at ha
    have hF : F ≠ [] := by rintro rfl; simp at h1; omega
    rcases h2 with h2 | ⟨B, p, _, _, _, h2⟩ <;> rw [h2] at ha' <;> simp [hopString] at ha'
    · exact hF ha'
    · exact hF ha'.1
  refine ⟨_, ?_, hnd, ?_⟩
  · have hst : clusterInit .fermion incl = .ok (idList .fermion incl) := by cases incl <;> rfl
    simp only [clusterBasis, hk, m1, hclen, hst, bind, Except.bind, clusterLoop]
    rw [← hnums, foldlM_append _ _ _ _ (fun n _ st hn => clusterFermion_ok n st hn) hnd]
    exact mkBasis_ok hnd
  · intro s
    rw [List.mem_append, List.mem_flatMap]
    apply or_congr
    · unfold idList; cases incl <;> simp
    · constructor
      · rintro ⟨n, hn, hs⟩
        obtain ⟨h1, F, h2, h3, h4⟩ := (mem_fermionList hcs).mp hs
        rw [clusterNums m3 _ h1] at hn
        rw [hsub] at h2
        subst h3
        refine ⟨F, ?_, h1, h2.1, h2.2, ?_⟩
        · rintro rfl; simp at hn
        · rcases h4 with h4 | ⟨B, p, h5, h6, h7, h8⟩
          · exact Or.inl h4
          · rw [hsub] at h5; exact Or.inr ⟨B, p, h5.1, h5.2, h6, h7, h8⟩
      · rintro ⟨F, h0, h1, h2, h3, h4⟩
        have hF := (hsub F).mpr ⟨h2, h3⟩
        refine ⟨F.length, ?_, (mem_fermionList hcs).mpr ⟨h1, F, hF, rfl, ?_⟩⟩
        · rw [clusterNums m3 _ h1]
          exact ⟨List.length_pos_iff.mpr h0, by have := hF.length_le; omega⟩
        · rcases h4 with h4 | ⟨B, p, h5, h5', h6, h7, h8⟩
          · exact Or.inl h4
          · exact Or.inr ⟨B, p, (hsub B).mpr ⟨h5, h5'⟩, h6, h7, h8⟩

theorem KArg.allowedList_ok {k : KArg} (h : k.Ok) : ∃ allowed, k.allowedList = .ok allowed ∧ allowed ≠ [] ∧ ∀ n : ℕ, (n : ℤ) ∈ allowed ↔ k.allows n := by
  cases k with
  | int k =>
    have h : 0 ≤ k := h
    refine ⟨_, rfl, ?_, ?_⟩
    · intro e
      have := congrArg List.length e
      simp at this
      omega
    · intro n
      simp only [List.mem_map, List.mem_range, KArg.allows]
      constructor
      · rintro ⟨m, h1, h2⟩
        simp at h2
        omega
      · intro hn
        exact ⟨n, by omega, rfl⟩
  | list l => exact ⟨l, rfl, h, fun n => Iff.rfl⟩
  | other => exact absurd h id

end Qosy
