import Verif.Proofs.SparseBound
import Verif.Proofs.SubspaceOps
import Verif.Props.Unary
/-! # Properties C87, C88: sparse matrices of multivectors (numga/examples/ga_sparse.py) -/
namespace Verif.Props
open Model Spec
variable {R : Type} [CommRing R] {A : Alg} {m n k : Nat}

/-! ## C87 -/

/-- C87: the matrix made of rows, columns and values is the sum of its entries: values at equal positions are added, and the order does not
matter.  Without entries the constructor raises. -/
theorem C87_construct {S : SubSpace} (hS : WfSub A S) (l : List (Fin m × Fin n × List R)) (hl : ∀ e ∈ l, e.2.2.length = S.blades.length) :
    (l ≠ [] → ∃ Z, GAMatrix.construct m n S (l.map fun e => ((e.1 : Nat), (e.2.1 : Nat), e.2.2)) = some Z ∧ Z.sub = S ∧
      IsMatrix A Z (l.map fun e => Matrix.single e.1 e.2.1 (val A ⟨S, e.2.2⟩)).sum) ∧
    (l = [] → GAMatrix.construct m n S (l.map fun e => ((e.1 : Nat), (e.2.1 : Nat), e.2.2)) = none) := by
  constructor
  · intro hne
    refine construct_spec hS (by simpa using hne) ?_ ?_
    · intro e he
      obtain ⟨f, hf, rfl⟩ := List.mem_map.1 he
      exact ⟨f.1.2, f.2.1.2, hl f hf⟩
    · intro i j
      rw [List.map_map]
      clear hl hne
      induction l with
      | nil => simp
      | cons e l ih =>
        rw [List.map_cons, List.sum_cons, Matrix.add_apply, ih, List.map_cons, List.sum_cons]
        congr 1
        simp only [Function.comp, Matrix.single_apply, Fin.ext_iff]
  · rintro rfl
    rfl

example : GAMatrix.construct 2 2 ⟨[1, 2]⟩ [(1, 0, [1, 0]), (0, 1, [2, 3]), (1, 0, [5, -1])] =
    some (⟨2, 2, ⟨[1, 2]⟩, [(0, 1, [2, 3]), (1, 0, [6, -1])]⟩ : GAMatrix ℤ) := by decide +kernel

/-- C87: `diag` is the diagonal matrix. -/
theorem C87_diag {x : GAVector R} {v : Fin n → Cl A R} (hx : IsVector A x v) :
    (0 < n → ∃ Z, GAMatrix.diag x = some Z ∧ IsMatrix A Z (Matrix.diagonal v)) ∧ (n = 0 → GAMatrix.diag x = none) := by
  constructor
  · intro hn
    have hne : x.vals ≠ [] := by
      intro h
      have := hx.len
      rw [h] at this
      simp at this
      omega
    rw [GAMatrix.diag, hx.len]
    obtain ⟨Z, z1, -, z2⟩ := construct_spec (m := n) (n := n) hx.sub (l := x.vals.mapIdx fun i v => (i, i, v)) (by simpa using hne) (by
      intro e he
      obtain ⟨i, hi, rfl⟩ := List.mem_mapIdx.1 he
      rw [hx.len] at hi
      exact ⟨hi, hi, hx.lens _ (List.getElem_mem _)⟩) (P := Matrix.diagonal v) (by
      intro i j
      have hm : x.vals.mapIdx (fun i v => (i, i, v)) = (List.range n).map fun i => (i, i, x.vals.getD i []) := by
        apply List.ext_getElem
        · simp [hx.len]
        · intro a h1 h2
          simp at h1
          simp [h1]
      rw [hm, List.map_map, lsum_range, Finset.sum_eq_single (i : Nat)]
      · rw [Matrix.diagonal_apply, hx.entry]
        simp only [Function.comp, Fin.ext_iff, true_and]
      · intro a _ ha
        simp [ha]
      · intro h
        exact absurd (Finset.mem_range.2 i.2) h)
    exact ⟨Z, z1, z2⟩
  · rintro rfl
    have : x.vals = [] := List.length_eq_zero_iff.1 hx.len
    rw [GAMatrix.diag, this]
    rfl

/-- C87: a matrix of numbers, given by coordinates, becomes the same matrix with scalars as entries. -/
theorem C87_scipy (hA : WfAlg A) (l : List (Fin m × Fin n × R)) (hne : l ≠ []) :
    ∃ Z, GAMatrix.fromScipy A m n (l.map fun e => ((e.1 : Nat), (e.2.1 : Nat), e.2.2)) = some Z ∧
      IsMatrix A Z ((l.map fun e => Matrix.single e.1 e.2.1 e.2.2).sum.map (algebraMap R (Cl A R))) := by
  obtain ⟨h1, h2⟩ := scalar_eq hA
  rw [GAMatrix.fromScipy, h1, Option.bind_eq_bind, Option.bind_some, List.map_map]
  obtain ⟨Z, z1, -, z2⟩ := (C87_construct h2 (l.map fun e => (e.1, e.2.1, [e.2.2])) (by
    intro e he
    obtain ⟨f, -, rfl⟩ := List.mem_map.1 he
    rfl)).1 (by simpa using hne)
  refine ⟨Z, ?_, ?_⟩
  · rw [← z1, List.map_map]
    rfl
  · convert z2 using 1
    rw [List.map_map]
    clear z1 z2 hne
    induction l with
    | nil => ext i j; simp
    | cons e l ih =>
      simp only [List.map_cons, List.sum_cons] at ih ⊢
      rw [← ih]
      ext i j
      simp only [Matrix.map_apply, Matrix.add_apply, map_add, Function.comp, Matrix.single_apply]
      congr 1
      rw [apply_ite (algebraMap R (Cl A R)), map_zero]
      simp [val, denote, blade_zero, Algebra.algebraMap_eq_smul_one]

theorem selected_spec {M : GAMatrix R} {P : Matrix (Fin m) (Fin n) (Cl A R)} (hM : IsMatrix A M P) {U : SubSpace} (hU : WfSub A U)
    (hsub : ∀ b ∈ M.sub.blades, b ∈ U.blades) :
    ∃ l, M.selected A U = some l ∧ l ≠ [] ∧ (∀ e ∈ l, e.1 < m ∧ e.2.1 < n ∧ e.2.2.length = U.blades.length) ∧
      ∀ (i : Fin m) (j : Fin n), P i j = (l.map fun e => if e.1 = (i : Nat) ∧ e.2.1 = (j : Nat) then val A ⟨U, e.2.2⟩ else 0).sum := by
  have h1 : ∀ e ∈ M.entries, ∃ y : Entry R, ((do some (e.1, e.2.1, (← MV.selectSubspace A ⟨M.sub, e.2.2⟩ U).vals)) : Option (Entry R)) = some y ∧
      (e ∈ M.entries ∧ y.1 = e.1 ∧ y.2.1 = e.2.1 ∧ y.2.2.length = U.blades.length ∧ val A ⟨U, y.2.2⟩ = val A ⟨M.sub, e.2.2⟩) := by
    intro e he
    have hx : WfMV A (⟨M.sub, e.2.2⟩ : MV R) := ⟨hM.sub, (hM.mem e he).2.2⟩
    obtain ⟨z, z1, z2, z3, z4⟩ := selectSubspace_givesIn hx hU
    refine ⟨(e.1, e.2.1, z.vals), by rw [z1]; rfl, he, rfl, rfl, by rw [← z2]; exact z3.len, ?_⟩
    rw [proj_val hx _ hsub] at z4
    rw [← z4, ← z2]
  obtain ⟨l, l1, l2⟩ := mapM_forall₂ h1
  refine ⟨l, l1, ?_, ?_, ?_⟩
  · rintro rfl
    exact hM.ne (List.forall₂_nil_right_iff.1 l2)
  · intro y hy
    obtain ⟨e, -, he, k1, k2, k3, -⟩ := forall₂_mem l2 y hy
    rw [k1, k2]
    exact ⟨(hM.mem e he).1, (hM.mem e he).2.1, k3⟩
  · intro i j
    rw [hM.entry]
    refine forall₂_sum l2 fun e y hy => ?_
    obtain ⟨he, k1, k2, -, k3⟩ := hy
    rw [k1, k2, k3]

theorem neg_spec {M : GAMatrix R} {P : Matrix (Fin m) (Fin n) (Cl A R)} (hM : IsMatrix A M P) : ∃ Z, M.neg = some Z ∧ IsMatrix A Z (-P) := by
  rw [GAMatrix.neg, hM.rows, hM.cols]
  obtain ⟨Z, z1, -, z2⟩ := construct_spec (m := m) (n := n) hM.sub (l := M.entries.map fun e => (e.1, e.2.1, e.2.2.map (- ·))) (by simpa using hM.ne) (by
    intro y hy
    obtain ⟨e, he, rfl⟩ := List.mem_map.1 hy
    simpa using hM.mem e he) (P := -P) (by
    intro i j
    rw [Matrix.neg_apply, hM.entry, List.map_map, List.sum_neg, List.map_map]
    congr 1
    apply List.map_congr_left
    intro e _
    simp only [Function.comp]
    split
    · exact (denote_neg _).symm
    · exact neg_zero)
  exact ⟨Z, z1, z2⟩

theorem add_spec (hA : WfAlg A) {M N : GAMatrix R} {P Q : Matrix (Fin m) (Fin n) (Cl A R)} (hM : IsMatrix A M P) (hN : IsMatrix A N Q) :
    ∃ Z, M.add A N = some Z ∧ IsMatrix A Z (P + Q) := by
  obtain ⟨U, u1, u2, u3⟩ := union_spec hA hM.sub hN.sub
  obtain ⟨l, l1, l2, l3, l4⟩ := selected_spec hM u2 fun b hb => (u3 b).2 ⟨hM.sub.lt b hb, .inl hb⟩
  obtain ⟨l', l1', l2', l3', l4'⟩ := selected_spec hN u2 fun b hb => (u3 b).2 ⟨hN.sub.lt b hb, .inr hb⟩
  rw [GAMatrix.add, if_pos ⟨by rw [hM.rows, hN.rows], by rw [hM.cols, hN.cols]⟩, hM.rows, hM.cols]
  simp only [u1, l1, l1', Option.bind_eq_bind, Option.bind_some]
  obtain ⟨Z, z1, -, z2⟩ := construct_spec (m := m) (n := n) u2 (l := l ++ l') (by simp [l2]) (by
    intro e he
    rcases List.mem_append.1 he with he | he
    exacts [l3 e he, l3' e he]) (P := P + Q) (by
    intro i j
    rw [Matrix.add_apply, l4, l4', List.map_append, List.sum_append])
  exact ⟨Z, z1, z2⟩

/-- C87: sum, difference and negation of matrices, of any two subspaces; for different shapes sum and difference raise. -/
theorem C87_sum (hA : WfAlg A) {M N : GAMatrix R} {P Q : Matrix (Fin m) (Fin n) (Cl A R)} (hM : IsMatrix A M P) (hN : IsMatrix A N Q) :
    (∃ Z, M.add A N = some Z ∧ IsMatrix A Z (P + Q)) ∧ (∃ Z, M.sub' A N = some Z ∧ IsMatrix A Z (P - Q)) ∧
      ∃ Z, M.neg = some Z ∧ IsMatrix A Z (-P) := by
  refine ⟨add_spec hA hM hN, ?_, neg_spec hM⟩
  obtain ⟨N', n1, n2⟩ := neg_spec hN
  obtain ⟨Z, z1, z2⟩ := add_spec hA hM n2
  refine ⟨Z, ?_, by rw [sub_eq_add_neg]; exact z2⟩
  rw [GAMatrix.sub', n1]
  exact z1

/-- C87: sums and differences of matrices of different shapes raise. -/
theorem C87_sum_raises {m' n' : Nat} {M N : GAMatrix R} {P : Matrix (Fin m) (Fin n) (Cl A R)} {Q : Matrix (Fin m') (Fin n') (Cl A R)}
    (hM : IsMatrix A M P) (hN : IsMatrix A N Q) (h : ¬ (m = m' ∧ n = n')) : M.add A N = none ∧ M.sub' A N = none := by
  have key : ∀ {N : GAMatrix R} {Q : Matrix (Fin m') (Fin n') (Cl A R)}, IsMatrix A N Q → M.add A N = none := by
    intro N Q hN
    rw [GAMatrix.add, if_neg (by rwa [hM.rows, hN.rows, hM.cols, hN.cols])]
  refine ⟨key hN, ?_⟩
  obtain ⟨N', n1, n2⟩ := neg_spec hN
  rw [GAMatrix.sub', n1]
  exact key n2

theorem matscalar_spec {f : SubSpace → SubSpace → Option (Operator Int)} {β : Cl A R →ₗ[R] Cl A R →ₗ[R] Cl A R} (hf : Realises A f β)
    {M : GAMatrix R} {P : Matrix (Fin m) (Fin n) (Cl A R)} (hM : IsMatrix A M P) {x : MV R} (hx : WfMV A x) :
    ∃ Z, M.matscalar f x = some Z ∧ IsMatrix A Z (Matrix.of fun i j => β (P i j) (val A x)) := by
  obtain ⟨o, o1, o2, o3, o4⟩ := hf M.sub x.sub hM.sub hx.sub
  rw [GAMatrix.matscalar, hM.rows, hM.cols]
  obtain ⟨Z, z1, -, z2⟩ := mapOp_spec hM o1 o2.wf_output (args := [x]) (L := (β.flip (val A x)).toAddMonoidHom) (fun y hy hyM => o4 y x hy hx hyM rfl)
    (key := fun e => (e.1, e.2.1)) (fun e he => ⟨(hM.mem e he).1, (hM.mem e he).2.1⟩) (fun i _ => i) (fun _ j => j) fun _ _ _ _ => Iff.rfl
  exact ⟨Z, z1, z2⟩

/-- C87: the product (of any kind) of a matrix and a multivector is taken entry by entry; a number scales the matrix. -/
theorem C87_scale (hA : WfAlg A) {f : SubSpace → SubSpace → Option (Operator Int)} {β : Cl A R →ₗ[R] Cl A R →ₗ[R] Cl A R} (hf : Realises A f β)
    {M : GAMatrix R} {P : Matrix (Fin m) (Fin n) (Cl A R)} (hM : IsMatrix A M P) {x : MV R} (hx : WfMV A x) (c : R) :
    (∃ Z, M.matscalar f x = some Z ∧ IsMatrix A Z (Matrix.of fun i j => β (P i j) (val A x))) ∧ ∃ Z, M.scale A c = some Z ∧ IsMatrix A Z (c • P) := by
  refine ⟨matscalar_spec hf hM hx, ?_⟩
  obtain ⟨u, u1, u2, u3⟩ := upcast_gives hA c
  rw [GAMatrix.scale, u1]
  obtain ⟨Z, z1, z2⟩ := matscalar_spec (realises_product hA) hM u2
  refine ⟨Z, z1, ?_⟩
  convert z2 using 1
  ext i j
  rw [Matrix.smul_apply, Matrix.of_apply, LinearMap.mul_apply', u3, Algebra.smul_def, Algebra.commutes]

/-- C87: the reverse of a matrix is its transpose with every entry reversed; the dual is taken entry by entry. -/
theorem C87_reverse (hA : WfAlg A) {M : GAMatrix R} {P : Matrix (Fin m) (Fin n) (Cl A R)} (hM : IsMatrix A M P) :
    (∃ Z, M.reverse A = some Z ∧ IsMatrix A Z (P.transpose.map CliffordAlgebra.reverse)) ∧
    ∃ Z, M.dual A = some Z ∧ IsMatrix A Z (P.map (rhMap A R)) := by
  constructor
  · obtain ⟨o, o1, o2, -⟩ := id (reverse_un hA (argSem_sub hM.sub))
    rw [GAMatrix.reverse, hM.rows, hM.cols]
    obtain ⟨Z, z1, -, z2⟩ := mapOp_spec hM o1 o2.wf_output (args := []) (L := (CliffordAlgebra.reverse (R := R)).toAddMonoidHom) (fun y hy hyM => by
        rw [← o1, ← hyM]
        exact un_gives (reverse_un hA) hy)
      (key := fun e => (e.2.1, e.1)) (fun e he => ⟨(hM.mem e he).2.1, (hM.mem e he).1⟩) (fun _ j => j) (fun i _ => i) fun _ _ _ _ => and_comm
    exact ⟨Z, z1, z2⟩
  · obtain ⟨o, o1, o2, -⟩ := id (rightHodge_un hA (argSem_sub hM.sub))
    rw [GAMatrix.dual, hM.rows, hM.cols]
    obtain ⟨Z, z1, -, z2⟩ := mapOp_spec hM o1 o2.wf_output (args := []) (L := (rhMap A R).toAddMonoidHom) (fun y hy hyM => by
        rw [← o1, ← hyM]
        exact un_gives (rightHodge_un hA) hy)
      (key := fun e => (e.1, e.2.1)) (fun e he => ⟨(hM.mem e he).1, (hM.mem e he).2.1⟩) (fun i _ => i) (fun _ j => j) fun _ _ _ _ => Iff.rfl
    exact ⟨Z, z1, z2⟩

/-- C87: the product of two matrices, for any kind of product of multivectors: entries are sums of products of a row and a column.  If no entry
of the first matrix meets an entry of the second one, the product raises, though it is zero. -/
theorem C87_matmat {f : SubSpace → SubSpace → Option (Operator Int)} {β : Cl A R →ₗ[R] Cl A R →ₗ[R] Cl A R} (hf : Realises A f β)
    {M N : GAMatrix R} {P : Matrix (Fin m) (Fin n) (Cl A R)} {Q : Matrix (Fin n) (Fin k) (Cl A R)} (hM : IsMatrix A M P) (hN : IsMatrix A N Q) :
    ((∃ e ∈ M.entries, ∃ g ∈ N.entries, e.2.1 = g.1) → ∃ Z, M.matmat f N = some Z ∧ IsMatrix A Z (Matrix.of fun i l => ∑ j, β (P i j) (Q j l))) ∧
    ((∀ e ∈ M.entries, ∀ g ∈ N.entries, e.2.1 ≠ g.1) → M.matmat f N = none ∧ ∀ i l, ∑ j, β (P i j) (Q j l) = 0) := by
  constructor
  · rintro ⟨e, he, g, hg, h⟩
    refine matmat_spec hf hM hN fun hp => ?_
    have : (e, g) ∈ GAMatrix.pairs M.entries N.entries := by
      simp [GAMatrix.pairs, he, hg, h]
    rw [hp] at this
    simp at this
  · intro h
    have hp : GAMatrix.pairs M.entries N.entries = [] := by
      simp only [GAMatrix.pairs, List.flatMap_eq_nil_iff, List.map_eq_nil_iff, List.filter_eq_nil_iff]
      intro e he g hg
      simpa using fun hh => h e he g hg hh.symm
    refine ⟨by rw [GAMatrix.matmat, if_neg (by simp [hp])], fun i l => Finset.sum_eq_zero fun j _ => ?_⟩
    by_cases hj : ∃ e ∈ M.entries, e.2.1 = (j : Nat)
    · obtain ⟨e, he, hej⟩ := hj
      have : Q j l = 0 := by
        rw [hN.entry]
        apply List.sum_eq_zero
        intro y hy
        obtain ⟨g, hg, rfl⟩ := List.mem_map.1 hy
        have := h e he g hg
        rw [if_neg (by omega)]
      rw [this, map_zero]
    · have : P i j = 0 := by
        rw [hM.entry]
        apply List.sum_eq_zero
        intro y hy
        obtain ⟨g, hg, rfl⟩ := List.mem_map.1 hy
        rw [if_neg]
        exact fun hh => hj ⟨g, hg, hh.2⟩
      rw [this, map_zero, LinearMap.zero_apply]

/-- C87: products of matrices whose shapes do not fit raise. -/
theorem C87_matmat_raises {n' : Nat} (f : SubSpace → SubSpace → Option (Operator Int)) {M N : GAMatrix R} {P : Matrix (Fin m) (Fin n) (Cl A R)}
    {Q : Matrix (Fin n') (Fin k) (Cl A R)} (hM : IsMatrix A M P) (hN : IsMatrix A N Q) (h : n ≠ n') : M.matmat f N = none := by
  rw [GAMatrix.matmat, if_neg]
  rw [hM.cols, hN.rows]
  exact fun hh => h hh.1

/-- C87: `M * N` is the product of matrices over the Clifford algebra. -/
theorem C87_product (hA : WfAlg A) {M N : GAMatrix R} {P : Matrix (Fin m) (Fin n) (Cl A R)} {Q : Matrix (Fin n) (Fin k) (Cl A R)} (hM : IsMatrix A M P)
    (hN : IsMatrix A N Q) (h : ∃ e ∈ M.entries, ∃ g ∈ N.entries, e.2.1 = g.1) :
    ∃ Z, M.matmat (fun S T => Factory.product A (.sub S) (.sub T)) N = some Z ∧ IsMatrix A Z (P * Q) :=
  (C87_matmat (realises_product hA) hM hN).1 h

/-- C87: the product of a matrix and a vector, for any kind of product of multivectors; it raises if and only if a row has no entries. -/
theorem C87_matvec {f : SubSpace → SubSpace → Option (Operator Int)} {β : Cl A R →ₗ[R] Cl A R →ₗ[R] Cl A R} (hf : Realises A f β)
    {M : GAMatrix R} {P : Matrix (Fin m) (Fin n) (Cl A R)} (hM : IsMatrix A M P) {x : GAVector R} {v : Fin n → Cl A R} (hx : IsVector A x v) :
    ((∀ i : Fin m, ∃ e ∈ M.entries, e.1 = i) → ∃ z, M.matvec f x = some z ∧ IsVector A z (fun i => ∑ j, β (P i j) (v j))) ∧
    ((∃ i : Fin m, ∀ e ∈ M.entries, e.1 ≠ i) → M.matvec f x = none) := matvec_spec hf hM hx

/-- C87: the products named by the methods `product`, `wedge`, `inner`, `regressive` and `commutator` are kinds of product as meant in
`C87_scale`, `C87_matmat`, `C87_matvec`. -/
theorem C87_kinds (hA : WfAlg A) :
    Realises (R := R) A (fun S T => Factory.product A (.sub S) (.sub T)) (LinearMap.mul R _) ∧
    (∃ β, (∀ x y, β x y = gradedProduct A R (fun i j k => i + j = k) x y) ∧ Realises A (fun S T => Factory.wedge A (.sub S) (.sub T)) β) ∧
    (∃ β, (∀ x y, β x y = gradedProduct A R (fun i j k => i + k = j ∨ j + k = i) x y) ∧ Realises A (fun S T => Factory.inner A (.sub S) (.sub T)) β) ∧
    (∃ β, (∀ x y, β x y = rhInv A R (gradedProduct A R (fun i j k => i + j = k) (rhMap A R x) (rhMap A R y))) ∧
      Realises A (fun S T => Factory.regressive A (.sub S) (.sub T)) β) ∧
    ∃ β : Cl A R →ₗ[R] Cl A R →ₗ[R] Cl A R, (∀ x y, (2 : R) • β x y = x * y - y * x) ∧ Realises A (fun S T => Factory.commutator A (.sub S) (.sub T)) β :=
  ⟨realises_product hA, ⟨_, fun _ _ => gradedProductₗ_apply _ _ _, realises_wedge hA⟩, ⟨_, fun _ _ => gradedProductₗ_apply _ _ _, realises_inner hA⟩,
    ⟨_, fun x y => by rw [LinearMap.compr₂_apply, LinearMap.compl₁₂_apply, gradedProductₗ_apply], realises_regressive hA⟩,
    ⟨_, two_comm hA, realises_commutator hA⟩⟩

/-- C87: products of matrices are associative, also with a vector: whenever the calls succeed, the results stand for the same. -/
theorem C87_assoc (hA : WfAlg A) {l : Nat} {M N O MN NO X Y : GAMatrix R} {P : Matrix (Fin m) (Fin n) (Cl A R)} {Q : Matrix (Fin n) (Fin k) (Cl A R)}
    {S : Matrix (Fin k) (Fin l) (Cl A R)} (hM : IsMatrix A M P) (hN : IsMatrix A N Q) (hO : IsMatrix A O S)
    {x : GAVector R} {v : Fin k → Cl A R} (hx : IsVector A x v) {y z w : GAVector R} (mul : SubSpace → SubSpace → Option (Operator Int))
    (hmul : mul = fun S T => Factory.product A (.sub S) (.sub T)) (h1 : M.matmat mul N = some MN) :
    (N.matmat mul O = some NO → MN.matmat mul O = some X → M.matmat mul NO = some Y → IsMatrix A X (P * Q * S) ∧ IsMatrix A Y (P * Q * S)) ∧
    (N.matvec mul x = some y → MN.matvec mul x = some z → M.matvec mul y = some w → IsVector A z ((P * Q).mulVec v) ∧ IsVector A w ((P * Q).mulVec v)) := by
  subst hmul
  have mat : ∀ {a b c : Nat} {M N Z : GAMatrix R} {P : Matrix (Fin a) (Fin b) (Cl A R)} {Q : Matrix (Fin b) (Fin c) (Cl A R)}, IsMatrix A M P → IsMatrix A N Q →
      M.matmat (fun S T => Factory.product A (.sub S) (.sub T)) N = some Z → IsMatrix A Z (P * Q) := by
    intro a b c M N Z P Q hM hN hZ
    obtain ⟨h1, h2⟩ := C87_matmat (realises_product hA) hM hN
    by_cases hp : ∃ e ∈ M.entries, ∃ g ∈ N.entries, e.2.1 = g.1
    · obtain ⟨Z', z1, z2⟩ := h1 hp
      rw [z1] at hZ
      cases hZ
      exact z2
    · have := (h2 fun e he g hg heg => hp ⟨e, he, g, hg, heg⟩).1
      rw [this] at hZ
      cases hZ
  have vec : ∀ {a b : Nat} {M : GAMatrix R} {x z : GAVector R} {P : Matrix (Fin a) (Fin b) (Cl A R)} {v : Fin b → Cl A R}, IsMatrix A M P → IsVector A x v →
      M.matvec (fun S T => Factory.product A (.sub S) (.sub T)) x = some z → IsVector A z (P.mulVec v) := by
    intro a b M x z P v hM hx hz
    obtain ⟨h1, h2⟩ := C87_matvec (realises_product hA) hM hx
    by_cases hp : ∀ i : Fin a, ∃ e ∈ M.entries, e.1 = i
    · obtain ⟨z', z1, z2⟩ := h1 hp
      rw [z1] at hz
      cases hz
      exact z2
    · have := h2 (by push Not at hp; exact hp)
      rw [this] at hz
      cases hz
  have hMN := mat hM hN h1
  refine ⟨fun a b c => ⟨mat hMN hO b, ?_⟩, fun a b c => ⟨vec hMN hx b, ?_⟩⟩
  · rw [Matrix.mul_assoc]
    exact mat hM (mat hN hO a) c
  · rw [← Matrix.mulVec_mulVec]
    exact vec hM (vec hN hx a) c

/-- C87: the reverse of a product is the product of the reverses, in opposite order. -/
theorem C87_adjoint (hA : WfAlg A) {M N : GAMatrix R} {P : Matrix (Fin m) (Fin n) (Cl A R)} {Q : Matrix (Fin n) (Fin k) (Cl A R)} (hM : IsMatrix A M P)
    (hN : IsMatrix A N Q) (h : ∃ e ∈ M.entries, ∃ g ∈ N.entries, e.2.1 = g.1) (mul : SubSpace → SubSpace → Option (Operator Int))
    (hmul : mul = fun S T => Factory.product A (.sub S) (.sub T)) :
    ∃ X Y, (do (← M.matmat mul N).reverse A) = some X ∧ (do (← N.reverse A).matmat mul (← M.reverse A)) = some Y ∧
      IsMatrix A X ((P * Q).transpose.map CliffordAlgebra.reverse) ∧ IsMatrix A Y ((P * Q).transpose.map CliffordAlgebra.reverse) := by
  subst hmul
  obtain ⟨MN, p1, p2⟩ := C87_product hA hM hN h
  obtain ⟨X, x1, x2⟩ := (C87_reverse hA p2).1
  obtain ⟨M', m1, m2⟩ := (C87_reverse hA hM).1
  obtain ⟨N', n1, n2⟩ := (C87_reverse hA hN).1
  have hkeys : ∀ {a b : Nat} {M M' : GAMatrix R} {P : Matrix (Fin a) (Fin b) (Cl A R)}, IsMatrix A M P → M.reverse A = some M' →
      ∀ e ∈ M.entries, ∃ e' ∈ M'.entries, e'.1 = e.2.1 ∧ e'.2.1 = e.1 := by
    intro a b M M' P hM hr e he
    rw [GAMatrix.reverse] at hr
    exact mapOp_keys hr e he
  obtain ⟨e, he, g, hg, heg⟩ := h
  obtain ⟨e', e1, e2, e3⟩ := hkeys hM m1 e he
  obtain ⟨g', g1, g2, g3⟩ := hkeys hN n1 g hg
  obtain ⟨Y, y1, y2⟩ := C87_product hA n2 m2 ⟨g', g1, e', e1, by omega⟩
  refine ⟨X, Y, by rw [p1]; exact x1, by rw [n1, Option.bind_eq_bind, Option.bind_some, m1]; exact y1, x2, ?_⟩
  convert y2 using 1
  ext i j
  simp only [Matrix.map_apply, Matrix.transpose_apply, Matrix.mul_apply, map_sum, CliffordAlgebra.reverse.map_mul]

/-- C87: a builder that is the first one in the process: the matrix is the sum of everything added. -/
theorem C87_builder {S : SubSpace} (hS : WfSub A S) (l : List (Fin m × Fin n × MV R)) (hl : ∀ e ∈ l, WfMV A e.2.2 ∧ SubOf e.2.2.sub S) (hne : l ≠ []) :
    ∃ s Z, l.foldlM (fun s e => GABuilder.add A ⟨m, n, S⟩ s (e.1 : Nat) (e.2.1 : Nat) e.2.2) [] = some s ∧ GABuilder.finalize ⟨m, n, S⟩ s = some Z ∧
      Z.sub = S ∧ IsMatrix A Z (l.map fun e => Matrix.single e.1 e.2.1 (val A e.2.2)).sum := by
  have key : ∀ (l : List (Fin m × Fin n × MV R)) (acc : List (Nat × Nat × MV R)), (∀ e ∈ l, WfMV A e.2.2 ∧ SubOf e.2.2.sub S) →
      ∃ t : List (Fin m × Fin n × MV R), l.foldlM (fun s e => GABuilder.add A ⟨m, n, S⟩ s (e.1 : Nat) (e.2.1 : Nat) e.2.2) acc =
        some (acc ++ t.map fun e => ((e.1 : Nat), (e.2.1 : Nat), e.2.2)) ∧
        List.Forall₂ (fun e f => f.1 = e.1 ∧ f.2.1 = e.2.1 ∧ f.2.2.sub = S ∧ WfMV A f.2.2 ∧ val A f.2.2 = val A e.2.2) l t := by
    intro l
    induction l with
    | nil => exact fun acc _ => ⟨[], by simp, .nil⟩
    | cons e l ih =>
      intro acc hl
      obtain ⟨h1, h2⟩ := hl e (by simp)
      obtain ⟨z, z1, z2, z3, z4⟩ := selectSubspace_givesIn h1 hS
      rw [proj_val h1 _ h2] at z4
      obtain ⟨t, t1, t2⟩ := ih (acc ++ [((e.1 : Nat), (e.2.1 : Nat), z)]) fun f hf => hl f (by simp [hf])
      refine ⟨(e.1, e.2.1, z) :: t, ?_, .cons ⟨rfl, rfl, z2, z3, z4⟩ t2⟩
      rw [List.foldlM_cons, GABuilder.add, if_pos ⟨contains_iff.2 h2, by omega, by simp, by omega, by simp⟩, z1]
      simp only [Option.bind_eq_bind, Option.bind_some, Int.toNat_natCast]
      rw [t1]
      simp
  obtain ⟨t, t1, t2⟩ := key l [] hl
  have ht : ∀ f ∈ t, f.2.2.sub = S ∧ WfMV A f.2.2 := fun f hf => by
    obtain ⟨e, -, -, -, h1, h2, -⟩ := forall₂_mem t2 f hf
    exact ⟨h1, h2⟩
  have hlen : ∀ f ∈ t, f.2.2.vals.length = S.blades.length := fun f hf => by
    rw [(ht f hf).2.len, (ht f hf).1]
  obtain ⟨Z, z1, z2, z3⟩ := (C87_construct hS (t.map fun f => (f.1, f.2.1, f.2.2.vals)) (by
    intro e he
    obtain ⟨f, hf, rfl⟩ := List.mem_map.1 he
    exact hlen f hf)).1 (by
    intro h
    rw [List.map_eq_nil_iff] at h
    subst h
    exact hne (List.forall₂_nil_right_iff.1 t2))
  refine ⟨_, Z, t1, ?_, z2, ?_⟩
  · rw [GABuilder.finalize, if_pos, ← z1]
    · simp only [List.nil_append, List.map_map]
      rfl
    · intro e he
      simp only [List.nil_append] at he
      obtain ⟨f, hf, rfl⟩ := List.mem_map.1 he
      exact hlen f hf
  · convert z3 using 1
    rw [List.map_map]
    refine forall₂_sum t2 fun e f hf => ?_
    simp only [Function.comp]
    rw [hf.1, hf.2.1, ← hf.2.2.2.2, ← hf.2.2.1]

/-- C87: adding an entry outside of the shape, or one that the subspace cannot store, raises. -/
theorem C87_builder_raises (b : GABuilder) (s : List (Nat × Nat × MV R)) (r c : Int) (v : MV R)
    (h : ¬ (SubOf v.sub b.sub ∧ (0 ≤ r ∧ r < b.rows) ∧ 0 ≤ c ∧ c < b.cols)) : b.add A s r c v = none := by
  rw [GABuilder.add, if_neg]
  rw [contains_iff]
  exact fun hh => h ⟨hh.1, ⟨hh.2.1, hh.2.2.1⟩, hh.2.2.2⟩

/-- C87, violated: the list of entries belongs to the class, not to the builder.  A second builder, of shape (1, 1), starts with the entries of the
first one: its matrix has an entry outside of its shape. -/
theorem C87_shared : ∃ s t, GABuilder.add pga3 ⟨2, 2, ⟨[1, 2]⟩⟩ [] 1 0 ⟨⟨[1]⟩, [5]⟩ = some s ∧ GABuilder.add pga3 ⟨1, 1, ⟨[1, 2]⟩⟩ s 0 0 ⟨⟨[2]⟩, [7]⟩ = some t ∧
    GABuilder.finalize ⟨1, 1, ⟨[1, 2]⟩⟩ t = some (⟨1, 1, ⟨[1, 2]⟩, [(0, 0, [0, 7]), (1, 0, [5, 0])]⟩ : GAMatrix ℤ) :=
  ⟨_, _, rfl, rfl, by decide +kernel⟩

/-- Vectors of `pga3` in two places. -/
def exRow : GAMatrix ℤ := ⟨2, 2, ⟨[1, 2]⟩, [(0, 1, [2, 3]), (1, 0, [6, -1])]⟩
/-- A diagonal of bivectors. -/
def exDiag : GAMatrix ℤ := ⟨2, 2, ⟨[3]⟩, [(0, 0, [1]), (1, 1, [4])]⟩
/-- Only the entry in the corner. -/
def exCorner : GAMatrix ℤ := ⟨2, 2, ⟨[1]⟩, [(0, 0, [1])]⟩
/-- A vector of two vectors. -/
def exColumn : GAVector ℤ := ⟨⟨[1, 2]⟩, [[1, 0], [2, 5]]⟩

theorem isMatrix_of {M : GAMatrix R} (h1 : WfSub A M.sub) (h2 : ∀ e ∈ M.entries, e.1 < M.rows ∧ e.2.1 < M.cols ∧ e.2.2.length = M.sub.blades.length)
    (h3 : M.entries.Pairwise Before) (h4 : M.entries ≠ []) : ∃ P : Matrix (Fin M.rows) (Fin M.cols) (Cl A R), IsMatrix A M P :=
  ⟨Matrix.of fun i j => (M.entries.map fun e => if e.1 = (i : Nat) ∧ e.2.1 = (j : Nat) then val A ⟨M.sub, e.2.2⟩ else 0).sum, rfl, rfl, h1, h2, h3, h4,
    fun _ _ => rfl⟩

/-- The hypotheses are met. -/
theorem exRow_is : ∃ P : Matrix (Fin 2) (Fin 2) (Cl pga3 ℤ), IsMatrix pga3 exRow P :=
  isMatrix_of (M := exRow) (wfSub_of_B (by decide +kernel)) (by decide) (by simp [exRow, Before]) (by decide)
theorem exDiag_is : ∃ P : Matrix (Fin 2) (Fin 2) (Cl pga3 ℤ), IsMatrix pga3 exDiag P :=
  isMatrix_of (M := exDiag) (wfSub_of_B (by decide +kernel)) (by decide) (by simp [exDiag, Before]) (by decide)
theorem exCorner_is : ∃ P : Matrix (Fin 2) (Fin 2) (Cl pga3 ℤ), IsMatrix pga3 exCorner P :=
  isMatrix_of (M := exCorner) (wfSub_of_B (by decide +kernel)) (by decide) (by simp [exCorner]) (by decide)
theorem exColumn_is : ∃ v : Fin 2 → Cl pga3 ℤ, IsVector pga3 exColumn v :=
  ⟨fun i => val pga3 ⟨exColumn.sub, exColumn.vals.getD i []⟩, wfSub_of_B (by decide +kernel), rfl, by decide, fun _ => rfl⟩

example : exRow.add pga3 exDiag = some ⟨2, 2, ⟨[1, 2, 3]⟩, [(0, 0, [0, 0, 1]), (0, 1, [2, 3, 0]), (1, 0, [6, -1, 0]), (1, 1, [0, 0, 4])]⟩ := by decide +kernel
example : exRow.sub' pga3 exRow = some ⟨2, 2, ⟨[1, 2]⟩, [(0, 1, [0, 0]), (1, 0, [0, 0])]⟩ := by decide +kernel
example : exRow.reverse pga3 = some ⟨2, 2, ⟨[1, 2]⟩, [(0, 1, [6, -1]), (1, 0, [2, 3])]⟩ ∧
    exDiag.reverse pga3 = some ⟨2, 2, ⟨[3]⟩, [(0, 0, [-1]), (1, 1, [-4])]⟩ := by decide +kernel
example : exRow.matmat (fun S T => Factory.product pga3 (.sub S) (.sub T)) exRow = some ⟨2, 2, ⟨[0, 3]⟩, [(0, 0, [-3, -20]), (1, 1, [-3, 20])]⟩ := by decide +kernel
example : exRow.matvec (fun S T => Factory.wedge pga3 (.sub S) (.sub T)) exColumn = some ⟨⟨[3]⟩, [[4], [1]]⟩ := by decide +kernel

/-- The hypotheses of `C87_product`, `C87_adjoint` and of the first case of `C87_matvec` are met together. -/
example : ∃ X Y, (do (← exRow.matmat (fun S T => Factory.product pga3 (.sub S) (.sub T)) exDiag).reverse pga3) = some X ∧
    (do (← exDiag.reverse pga3).matmat (fun S T => Factory.product pga3 (.sub S) (.sub T)) (← exRow.reverse pga3)) = some Y ∧
    ∃ P : Matrix (Fin 2) (Fin 2) (Cl pga3 ℤ), IsMatrix pga3 X P ∧ IsMatrix pga3 Y P := by
  obtain ⟨P, hP⟩ := exRow_is
  obtain ⟨Q, hQ⟩ := exDiag_is
  obtain ⟨X, Y, h1, h2, h3, h4⟩ := C87_adjoint wf_pga3 hP hQ (by decide) _ rfl
  exact ⟨X, Y, h1, h2, _, h3, h4⟩
example : ∃ z v, exRow.matvec (fun S T => Factory.inner pga3 (.sub S) (.sub T)) exColumn = some z ∧ IsVector pga3 (n := 2) z v := by
  obtain ⟨P, hP⟩ := exRow_is
  obtain ⟨v, hv⟩ := exColumn_is
  obtain ⟨z, h1, h2⟩ := (C87_matvec (realises_inner wf_pga3) hP hv).1 (by decide)
  exact ⟨z, _, h1, h2⟩

/-- C87, violated: a row without entries, and factors without a common index, raise instead of giving zeros. -/
theorem C87_empty : exCorner.matvec (fun S T => Factory.product pga3 (.sub S) (.sub T)) exColumn = none ∧
    exCorner.matmat (fun S T => Factory.product pga3 (.sub S) (.sub T)) ⟨2, 2, ⟨[1]⟩, [(1, 1, [1])]⟩ = none := by decide +kernel

/-! ## C88 -/

theorem flatten_getD {l : List (List R)} {k : Nat} (hl : ∀ u ∈ l, u.length = k) : l.flatten.length = l.length * k ∧
    ∀ r < l.length, ∀ a < k, l.flatten.getD (r * k + a) 0 = (l.getD r []).getD a 0 := by
  induction l with
  | nil => simp
  | cons u l ih =>
    obtain ⟨h1, h2⟩ := ih fun v hv => hl v (by simp [hv])
    have hu := hl u (by simp)
    refine ⟨by rw [List.flatten_cons, List.length_append, h1, hu, List.length_cons]; ring, fun r hr a ha => ?_⟩
    rw [List.flatten_cons, List.getD_eq_getElem?_getD, List.getD_eq_getElem?_getD]
    cases r with
    | zero =>
      rw [List.getElem?_append_left (by omega)]
      simp
    | succ r =>
      rw [List.getElem?_append_right (by rw [hu, Nat.succ_mul]; omega)]
      have := h2 r (by simpa using hr) a ha
      rw [List.getD_eq_getElem?_getD, List.getD_eq_getElem?_getD] at this
      have e : (r + 1) * k + a - u.length = r * k + a := by rw [hu, Nat.succ_mul]; omega
      rw [e, this]
      simp

/-- C88: binding the product to a subspace first, then multiplying with vectors of that subspace, is multiplying directly: the same arrays, and
raising for the same inputs. -/
theorem C88_bound {f : SubSpace → SubSpace → Option (Operator Int)} {β : Cl A R →ₗ[R] Cl A R →ₗ[R] Cl A R} (hf : Realises A f β) {M : GAMatrix R}
    {P : Matrix (Fin m) (Fin n) (Cl A R)} (hM : IsMatrix A M P) {T : SubSpace} (hT : WfSub A T) :
    ∃ B, BoundMatrix.bind f M T = some B ∧ ∀ (x : GAVector R) (v : Fin n → Cl A R), IsVector A x v → x.sub = T → B.matvec x = M.matvec f x := by
  obtain ⟨o, l, -, -, -, b, -⟩ := bind_spec hf hM hT
  refine ⟨_, b, fun x v hx hxT => ?_⟩
  subst hxT
  rw [← bound_matvec_eq hf hM hx, b]
  rfl

/-- C88: the flattened operator takes the coefficients of a vector one after the other, and returns those of the product. -/
theorem C88_operator {f : SubSpace → SubSpace → Option (Operator Int)} {β : Cl A R →ₗ[R] Cl A R →ₗ[R] Cl A R} (hf : Realises A f β) {M : GAMatrix R}
    {P : Matrix (Fin m) (Fin n) (Cl A R)} (hM : IsMatrix A M P) {T : SubSpace} (hT : WfSub A T) :
    ∃ o B, f M.sub T = some o ∧ BoundMatrix.bind f M T = some B ∧ (∀ x : List R, x.length ≠ n * T.blades.length → B.asOperator x = none) ∧
      ((∀ i : Fin m, ∃ e ∈ M.entries, e.1 = i) → ∀ x : List R, x.length = n * T.blades.length →
        ∃ y, B.asOperator x = some y ∧ y.length = m * o.output.blades.length ∧ ∀ (r : Fin m), ∀ a < o.output.blades.length,
          y.getD (r * o.output.blades.length + a) 0 = coef A R (o.output.blades.getD a 0)
            (∑ c : Fin n, β (P r c) (∑ j ∈ Finset.range T.blades.length, x.getD (c * T.blades.length + j) 0 • blade A R (T.blades.getD j 0)))) := by
  obtain ⟨o, l, o1, o2, o3, b, -⟩ := bind_spec hf hM hT
  have hax : o.axes = [M.sub, T, o.output] := by rw [o2.axes_eq, o3]; rfl
  have hbs : (⟨M, o, l⟩ : BoundMatrix R).blockShape = (o.output.blades.length, T.blades.length) := by
    simp only [BoundMatrix.blockShape]
    rw [hax]
    rfl
  refine ⟨o, ⟨M, o, l⟩, o1, b, fun x hx => ?_, fun hrows x hx => ?_⟩
  · rw [BoundMatrix.asOperator, hbs]
    exact if_neg (by rw [hM.cols]; exact hx)
  obtain ⟨v, hv⟩ : ∃ v : GAVector R, v = ⟨T, (List.range n).map fun c => (x.drop (c * T.blades.length)).take T.blades.length⟩ := ⟨_, rfl⟩
  have hlen : ∀ c < n, ((x.drop (c * T.blades.length)).take T.blades.length).length = T.blades.length := by
    intro c hc
    rw [List.length_take, List.length_drop, hx]
    have : (c + 1) * T.blades.length ≤ n * T.blades.length := Nat.mul_le_mul_right _ hc
    rw [Nat.succ_mul] at this
    omega
  have hiv : IsVector A v fun c : Fin n => ∑ j ∈ Finset.range T.blades.length, x.getD (c * T.blades.length + j) 0 • blade A R (T.blades.getD j 0) := by
    subst hv
    refine ⟨hT, by simp, ?_, fun c => ?_⟩
    · intro u hu
      obtain ⟨c, hc, rfl⟩ := List.mem_map.1 hu
      exact hlen c (List.mem_range.1 hc)
    · have hg : ((List.range n).map fun c => (x.drop (c * T.blades.length)).take T.blades.length).getD c [] =
          (x.drop (c * T.blades.length)).take T.blades.length := by simp
      rw [hg, val, denote_eq_sum A R (hlen c c.2)]
      refine Finset.sum_congr rfl fun j hj => ?_
      congr 1
      rw [List.getD_eq_getElem?_getD, List.getD_eq_getElem?_getD, List.getElem?_take_of_lt (Finset.mem_range.1 hj), List.getElem?_drop]
  obtain ⟨z, z1, z2⟩ := (C87_matvec hf hM hiv).1 hrows
  have hzsub : z.sub = o.output := by
    rw [GAMatrix.matvec, if_pos (by rw [hiv.len, hM.cols]), hv, o1] at z1
    simp only [Option.bind_eq_bind, Option.bind_some] at z1
    obtain ⟨t, -, z1⟩ := Option.bind_eq_some_iff.1 z1
    obtain ⟨s, -, z1⟩ := Option.bind_eq_some_iff.1 z1
    obtain ⟨u, -, z1⟩ := Option.bind_eq_some_iff.1 z1
    cases z1
    rfl
  have hB : (⟨M, o, l⟩ : BoundMatrix R).matvec v = some z := by
    have := bound_matvec_eq hf hM hiv
    rw [show v.sub = T by rw [hv], b, z1] at this
    exact this
  have hl' : ∀ u ∈ z.vals, u.length = o.output.blades.length := by rw [← hzsub]; exact z2.lens
  obtain ⟨f1, f2⟩ := flatten_getD hl'
  refine ⟨z.vals.flatten, ?_, by rw [f1, z2.len], fun r a ha => ?_⟩
  · rw [BoundMatrix.asOperator, hbs]
    simp only
    rw [if_pos (by rw [hM.cols]; exact hx), hax, hM.cols]
    simp only [List.getD_cons_succ, List.getD_cons_zero]
    rw [← hv, hB]
    rfl
  · have hr : (r : Nat) < z.vals.length := by rw [z2.len]; exact r.2
    rw [f2 r hr a ha, z2.entry r, hzsub]
    have hw : WfMV A (⟨o.output, z.vals.getD r []⟩ : MV R) := ⟨o2.wf_output, hl' _ (by rw [getD_lt _ _ hr]; exact List.getElem_mem hr)⟩
    have hmem : o.output.blades.getD a 0 ∈ (⟨o.output, z.vals.getD r []⟩ : MV R).sub.blades := by
      rw [getD_lt _ _ ha]; exact List.getElem_mem ha
    rw [← coeff_eq hw, coeff_idxOf hw hmem]
    simp only
    rw [getD_lt o.output.blades _ ha, List.Nodup.idxOf_getElem o2.wf_output.nodup a ha]

/-- C88: `as_dense` raises unless the subspaces of rows and columns have equal size; then every block is the transpose of the matrix of the product
with the entry: in row `i` and column `j` of the block it has the coefficient of blade `j` in the product with blade `i`. -/
theorem C88_dense {f : SubSpace → SubSpace → Option (Operator Int)} {β : Cl A R →ₗ[R] Cl A R →ₗ[R] Cl A R} (hf : Realises A f β) {M : GAMatrix R}
    {P : Matrix (Fin m) (Fin n) (Cl A R)} (hM : IsMatrix A M P) {T : SubSpace} (hT : WfSub A T) :
    ∃ o B, f M.sub T = some o ∧ BoundMatrix.bind f M T = some B ∧ (o.output.blades.length ≠ T.blades.length → B.asDense = none) ∧
      ∀ k, o.output.blades.length = k → T.blades.length = k → ∃ D, B.asDense = some D ∧ D.length = m * k ∧ (∀ u ∈ D, u.length = n * k) ∧
        ∀ (r : Fin m) (c : Fin n), ∀ i < k, ∀ j < k,
          (D.getD (r * k + i) []).getD (c * k + j) 0 = coef A R (o.output.blades.getD j 0) (β (P r c) (blade A R (T.blades.getD i 0))) := by
  obtain ⟨o, l, o1, o2, o3, b, hl⟩ := bind_spec hf hM hT
  have hax : o.axes = [M.sub, T, o.output] := by rw [o2.axes_eq, o3]; rfl
  have hbs : (⟨M, o, l⟩ : BoundMatrix R).blockShape = (o.output.blades.length, T.blades.length) := by
    simp only [BoundMatrix.blockShape]
    rw [hax]
    rfl
  refine ⟨o, ⟨M, o, l⟩, o1, b, fun h => ?_, fun k hk hk' => ?_⟩
  · rw [BoundMatrix.asDense, hbs]
    exact if_neg fun hh => h hh.1
  rw [BoundMatrix.asDense, hbs]
  simp only
  rw [if_pos ⟨by rw [hk, hk'], fun e he => by rw [hM.rows, hM.cols]; exact ⟨(hM.mem e he).1, (hM.mem e he).2.1⟩⟩]
  refine ⟨_, rfl, by simp [hM.rows, hk], ?_, fun r c i hi j hj => ?_⟩
  · intro u hu
    obtain ⟨a, -, rfl⟩ := List.mem_map.1 hu
    simp [hM.cols, hk']
  have bound : ∀ {s p : Nat} (r : Fin s), p < k → r * k + p < s * k := by
    intro s p r hp
    have : (r + 1) * k ≤ s * k := Nat.mul_le_mul_right _ r.2
    rw [Nat.succ_mul] at this
    omega
  have hdiv : ∀ r p : Nat, p < k → (r * k + p) / k = r ∧ (r * k + p) % k = p := by
    intro r p hp
    have hk0 : 0 < k := by omega
    rw [Nat.mul_comm]
    exact ⟨by rw [Nat.mul_add_div hk0, Nat.div_eq_of_lt hp, Nat.add_zero], by rw [Nat.mul_add_mod, Nat.mod_eq_of_lt hp]⟩
  rw [getD_lt (List.map _ (List.range (M.rows * _))) _ (by simpa [hM.rows, hk] using bound r hi), List.getElem_map, List.getElem_range,
    getD_lt (List.map _ (List.range (M.cols * _))) _ (by simpa [hM.cols, hk'] using bound c hj), List.getElem_map, List.getElem_range]
  simp only [hk, hk', (hdiv r i hi).1, (hdiv r i hi).2, (hdiv c j hj).1, (hdiv c j hj).2]
  rw [find_entry hM.order hl r c (fun q => q.kernel.get [i, j])
    (fun e => coef A R (o.output.blades.getD j 0) (β (val A ⟨M.sub, e.2.2⟩) (blade A R (T.blades.getD i 0))))
    (fun e q _ hq => hq.2.2.2.2 i (by omega) j (by omega)), hM.entry, ← LinearMap.flip_apply, map_list_sum, map_list_sum]
  simp only [List.map_map]
  congr 1
  apply List.map_congr_left
  intro e _
  simp only [Function.comp]
  split
  · rfl
  · rw [map_zero, map_zero]

/-- C88, violated: with the rotor `2 + 3 e12` as only entry, `as_dense` is the matrix of the product with the reverse of the entry: applied to
`(1, 0)` it gives `2 - 3 e12`, whereas the operator and the product give `2 + 3 e12`. -/
theorem C88_dense_wrong :
    (do (← BoundMatrix.bind (fun S T => Factory.product pga3 (.sub S) (.sub T)) ⟨1, 1, ⟨[0, 6]⟩, [(0, 0, [(2 : ℤ), 3])]⟩ ⟨[0, 6]⟩).asDense) = some [[2, 3], [-3, 2]] ∧
    (do (← BoundMatrix.bind (fun S T => Factory.product pga3 (.sub S) (.sub T)) ⟨1, 1, ⟨[0, 6]⟩, [(0, 0, [(2 : ℤ), 3])]⟩ ⟨[0, 6]⟩).asOperator [1, 0]) = some [2, 3] := by
  decide +kernel

/-- A vector times a vector: from two to two coefficients. -/
example : (do (← BoundMatrix.bind (fun S T => Factory.product pga3 (.sub S) (.sub T)) exRow ⟨[1, 2]⟩).asOperator [1, 0, 2, 5]) = some [15, 4, 0, 1] := by
  decide +kernel
example : (do (← BoundMatrix.bind (fun S T => Factory.wedge pga3 (.sub S) (.sub T)) exRow ⟨[1, 2]⟩).asDense) = none := by decide +kernel

end Verif.Props
