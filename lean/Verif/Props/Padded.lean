import Verif.Model.Padded
import Verif.Props.Hubbard
import Verif.Props.AbInitioOnTheFly
import Verif.Props.Hilbert

/-!
# Property C190: padded connected elements of the fermionic Hamiltonians

Specification used: `Verif/Spec/Fock.lean` (`hubbard`, `abInitioTwice`), `Verif/Spec/Occupation.lean` (`occOf`, `rowElem`),
`Verif/Spec/Updates.lean` (`localEnergy`).
-/

namespace GPSKet.Padded
open Spec

variable {L : ℕ} {K : Type} [Field K]

/-- `rows` lists, configuration by configuration of the batch `xs`, as many entries for each, entries summing for every `x'` to the matrix
element `H x x'`. -/
structure Represents (H : Cfg L → Cfg L → K) (xs : List (Cfg L)) (rows : List (List (Cfg L × K))) : Prop where
  length : rows.length = xs.length
  equal : ∃ n, ∀ row ∈ rows, row.length = n
  elem : ∀ b (h : b < xs.length) (h' : b < rows.length) (x' : Cfg L), rowElem rows[b] x' = H xs[b] x'

theorem drop_take_flatMap {α β : Type} (f : α → List β) (n : ℕ) : ∀ (xs : List α), (∀ x ∈ xs, (f x).length = n) →
    ∀ b (h : b < xs.length), ((xs.flatMap f).drop (b * n)).take n = f xs[b]
  | [], _, b, h => absurd h (by simp)
  | x :: xs, hn, 0, _ => by
    have := hn x (by simp)
    simp [← this]
  | x :: xs, hn, b + 1, h => by
    have h1 := hn x (by simp)
    have h2 := drop_take_flatMap f n xs (fun y hy => hn y (by simp [hy])) b (by simpa using h)
    rw [List.flatMap_cons, add_mul, one_mul, add_comm, ← List.drop_drop, ← h1, List.drop_left, h1]
    simpa using h2

theorem length_flatMap_const {α β : Type} (f : α → List β) (n : ℕ) (xs : List α) (hn : ∀ x ∈ xs, (f x).length = n) :
    (xs.flatMap f).length = xs.length * n := by
  induction xs with
  | nil => simp
  | cons x xs ih =>
    rw [List.flatMap_cons, List.length_append, ih (fun y hy => hn y (by simp [hy])), hn x (by simp), List.length_cons]
    ring

omit [Field K] in
/-- A buffer of rows of equal length, the first of which ends at `sections[0]`, is cut up correctly. -/
theorem padded_eq (f : Cfg L → List (Cfg L × K)) (n : ℕ) (xs : List (Cfg L)) (hne : xs ≠ []) (hn : ∀ x ∈ xs, (f x).length = n)
    (b : ConnBuf L K) (hout : b.out = xs.flatMap f) (hs : b.sections 0 = some n) : padded xs.length b = some (xs.map f) := by
  have h0 : xs.length ≠ 0 := by simpa using hne
  unfold padded
  rw [if_neg h0, hs]
  simp only
  rw [if_pos (by rw [hout, length_flatMap_const f n xs hn])]
  congr 1
  apply List.ext_getElem (by simp)
  intro k h1 h2
  simp only [List.getElem_map, List.getElem_range, hout]
  exact drop_take_flatMap f n xs hn k (by simpa using h2)

/-- **C190**, Hubbard model with at least one edge: for every non-empty batch, of whatever electron numbers, the padded result exists and its
rows are those of the second-quantised Hamiltonian, configuration by configuration. -/
theorem C190_hubbard (U : K) (edges : List ((Fin L × Fin L) × K)) (hedges : edges ≠ []) (xs : List (Cfg L)) (hne : xs ≠ []) :
    ∃ buf rows, hubbardConnFlattened U edges true xs = .ok buf ∧ padded xs.length buf = some rows ∧
      Represents (fun x x' => hubbard U edges (occOf x) (occOf x')) xs rows := by
  refine ⟨_, xs.map (hubbardRow U edges), rfl, ?_, ⟨by simp, ⟨1 + edges.length * 4, ?_⟩, ?_⟩⟩
  · have h0 : 0 < xs.length := List.length_pos_of_ne_nil hne
    refine padded_eq _ (1 + edges.length * 4) xs hne (fun x _ => hubbardRow_length U edges x) _ ?_ ?_
    · rw [hubbardKernel_eq]
    · rw [hubbardKernel_eq]
      simp [h0, hedges]
  · intro row hrow
    obtain ⟨x, -, rfl⟩ := List.mem_map.mp hrow
    exact hubbardRow_length U edges x
  · intro b h h' x'
    rw [List.getElem_map, ← C04_hubbard_row U edges, hubbardKernel_eq]
    simp

/-- **C190 is false for a Hubbard model without edges** (two isolated sites, say): `sections[0]`, which sets the number of connected elements,
is never written. -/
theorem C190_no_edges_fails (U : K) (xs : List (Cfg L)) :
    ∃ buf, hubbardConnFlattened U [] true xs = .ok buf ∧ padded xs.length buf = none := by
  refine ⟨_, rfl, ?_⟩
  unfold padded
  rw [C06_sections_empty_edges_fails]
  simp

/-- **C190**, ab-initio Hamiltonian: for every Hilbert space its constructor accepts and every non-empty batch of configurations of that space,
the padded result exists and its rows are those of the molecular Hamiltonian, configuration by configuration. -/
theorem C190_abInitio (h2 : (2 : K) ≠ 0) (hi hi' : FermionicHilbert) (hinit : abInit hi = .ok hi')
    (h : Fin hi'.size → Fin hi'.size → K) (e : Fin hi'.size → Fin hi'.size → Fin hi'.size → Fin hi'.size → K)
    (hsym : ∀ p q r s, e p q r s = e r s p q) (xs : List (Cfg hi'.size)) (hne : xs ≠ []) (hx : ∀ x ∈ xs, hi'.accepts x = true) :
    ∃ buf rows, abConnFlattened hi' (abT h e) e true xs = .ok buf ∧ padded xs.length buf = some rows ∧
      Represents (fun x x' => (1 / 2) * abInitioTwice h e (occOf x) (occOf x')) xs rows := by
  obtain ⟨n, hn⟩ : ∃ n, hi'.n_elec = some n := by
    unfold abInit at hinit
    split at hinit
    · cases hinit
    · rename_i n hn
      cases hinit
      exact ⟨n, hn⟩
  have hlen : ∀ x ∈ xs, ((abRows (abT h e) e x).length : ℤ) = numConnected hi'.size n.1 n.2 := by
    intro x hxx
    have := hx x hxx
    unfold FermionicHilbert.accepts at this
    rw [hn] at this
    obtain ⟨h1, h3⟩ := (C19_constraint_iff n x).mp this
    rw [abRows_length, C12_alloc, h1, h3]
  obtain ⟨m, hm⟩ : ∃ m : ℕ, (m : ℤ) = numConnected hi'.size n.1 n.2 := by
    obtain ⟨x, hxx⟩ := List.exists_mem_of_ne_nil xs hne
    exact ⟨_, hlen x hxx⟩
  have hlen' : ∀ x ∈ xs, (abRows (abT h e) e x).length = m := by
    intro x hxx
    have := hlen x hxx
    rw [← hm] at this
    exact_mod_cast this
  obtain ⟨g1, -, g3⟩ := abKernel_aux (abT h e) e xs 0 { buf := { out := [], sections := fun _ => none }, alloc := 0 }
  change (abKernel (abT h e) e xs).buf.out = _ at g1
  change ∀ j, (abKernel (abT h e) e xs).buf.sections j = _ at g3
  have h0 : 0 < xs.length := List.length_pos_of_ne_nil hne
  refine ⟨(abKernel (abT h e) e xs).buf, xs.map (abRows (abT h e) e), ?_, ?_, ⟨by simp, ⟨m, ?_⟩, ?_⟩⟩
  · simp [abConnFlattened, hn]
  · refine padded_eq _ m xs hne hlen' _ (by simpa using g1) ?_
    rw [g3, if_pos (by omega)]
    obtain ⟨x, ys, rfl⟩ := List.exists_cons_of_ne_nil hne
    simp [hlen' x (by simp)]
  · intro row hrow
    obtain ⟨x, hxx, rfl⟩ := List.mem_map.mp hrow
    exact hlen' x hxx
  · intro b hb hb' x'
    rw [List.getElem_map, ← C13_rows h2 h e hsym, abKernel_single]

/-- **C190**: local energies summed over such rows are the local energies of the operator, for every wave function. -/
theorem C190_local_energies (H : Cfg L → Cfg L → ℂ) (logpsi : Cfg L → ℂ) (xs : List (Cfg L)) (rows : List (List (Cfg L × ℂ)))
    (hr : Represents H xs rows) (b : ℕ) (h : b < xs.length) (h' : b < rows.length) :
    rowEnergy logpsi xs[b] rows[b] = localEnergy (H xs[b]) logpsi xs[b] := by
  unfold localEnergy rowEnergy
  simp only [← hr.elem b h h', ← Complex.exp_sub]
  rw [rowApply_eq (row := rows[b]) (f := fun x' => Complex.exp (logpsi x' - logpsi xs[b]))]
  rfl

/-- **C190**: the restriction to one sector is needed by the ab-initio operator.  Handed configurations of different electron numbers (a
batch the Hilbert space does not contain) it raises no exception, and the second configuration is given elements of the third: the empty
system has the one element of the empty system, not two. -/
theorem C190_mixed_sectors : ∃ rows, padded 4 (abKernel (fun _ _ => (1 : ℚ)) (fun _ _ _ _ => 0) [![1, 0], ![0, 0], ![0, 0], (![1, 2] : Cfg 2)]).buf
      = some rows ∧ (rows.map List.length) = [2, 2, 2, 2] ∧
      ((abKernel (fun _ _ => (1 : ℚ)) (fun _ _ _ _ => 0) [(![0, 0] : Cfg 2)]).buf.out).length = 1 := by
  refine ⟨_, rfl, ?_, ?_⟩ <;> decide +kernel

/-- non-vacuity: a space of three orbitals with two up and one down electron, and two of its configurations -/
example : abInit ⟨3, some (2, 1)⟩ = .ok ⟨3, some (2, 1)⟩ ∧
    ∀ x ∈ ([![3, 1, 0], ![1, 1, 2]] : List (Cfg 3)), (⟨3, some (2, 1)⟩ : FermionicHilbert).accepts x = true := by
  refine ⟨rfl, ?_⟩
  decide +kernel

/-- and the rows of such a batch: nine entries for each configuration -/
example : ∃ rows, padded 2 (abKernel (fun _ _ => (1 : ℚ)) (fun _ _ _ _ => 1) [![3, 1, 0], (![1, 1, 2] : Cfg 3)]).buf = some rows ∧
    rows.map List.length = [9, 9] := by
  refine ⟨_, rfl, ?_⟩
  decide +kernel

end GPSKet.Padded
