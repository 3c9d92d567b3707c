import Verif.Model.Integrals

/-! # C123-C127: the files with the integrals of a molecule under kills and restarts -/

namespace GPSKet.Integrals

variable {B H₁ H₂ O X : Type}

/-- What the process that is running calculates with. -/
def current (op : Option (Args B H₁ H₂ O X × Proc B H₁ H₂)) : List (B × H₁ × H₂) :=
  match op with
  | some (_, p) => result p
  | none => []

/-! ## Invariants -/

/-- The files of `H2O.py` and `H4x4x4.py`. -/
def CachedOk (mol : Molecule B H₁ H₂ O X) (k : Disk B H₁ H₂ O X) : Prop :=
  ((k.basis = none ∨ k.basis = some none) ∧ k.h1 = none ∧ k.h2 = none) ∨
  ∃ b, k.basis = some (some b) ∧
    (((k.h1 = none ∨ k.h1 = some none ∨ k.h1 = some (some (mol.core b))) ∧ k.h2 = none) ∨
     (mol.orthonormal b = true ∧ k.h1 = some (some (mol.core b)) ∧ (k.h2 = some none ∨ k.h2 = some (some (mol.eri b)))))

/-- The files and the point of the program, `H2O.py` and `H4x4x4.py`. -/
def CachedAt (mol : Molecule B H₁ H₂ O X) (k : Disk B H₁ H₂ O X) : Proc B H₁ H₂ → Prop
  | .boot => CachedOk mol k
  | .basisOpen _ => k.basis = some none ∧ k.h1 = none ∧ k.h2 = none
  | .haveBasis b => k.basis = some (some b) ∧ CachedOk mol k
  | .h1Open b => k.basis = some (some b) ∧ k.h1 = some none ∧ k.h2 = none ∧ mol.orthonormal b = true
  | .h1Done b => k.basis = some (some b) ∧ k.h1 = some (some (mol.core b)) ∧ k.h2 = none ∧ mol.orthonormal b = true
  | .h2Open b => k.basis = some (some b) ∧ k.h1 = some (some (mol.core b)) ∧ k.h2 = some none ∧ mol.orthonormal b = true
  | .ready b h1 h2 => k.basis = some (some b) ∧ k.h1 = some (some (mol.core b)) ∧ k.h2 = some (some (mol.eri b)) ∧
      mol.orthonormal b = true ∧ h1 = mol.core b ∧ h2 = mol.eri b
  | .raised => CachedOk mol k
  | _ => False

/-- What the ended processes calculated with. -/
def PastOk (mol : Molecule B H₁ H₂ O X) (k : Disk B H₁ H₂ O X) (rs : List (B × H₁ × H₂)) : Prop :=
  ∀ r ∈ rs, k.basis = some (some r.1) ∧ r.2 = (mol.core r.1, mol.eri r.1) ∧ mol.orthonormal r.1 = true

theorem cachedAt_ok {mol : Molecule B H₁ H₂ O X} {k : Disk B H₁ H₂ O X} {p : Proc B H₁ H₂} (h : CachedAt mol k p) : CachedOk mol k := by
  cases p with
  | boot => exact h
  | basisOpen b => exact Or.inl ⟨Or.inr h.1, h.2⟩
  | haveBasis b => exact h.2
  | h1Open b => exact Or.inr ⟨b, h.1, Or.inl ⟨Or.inr (Or.inl h.2.1), h.2.2.1⟩⟩
  | h1Done b => exact Or.inr ⟨b, h.1, Or.inl ⟨Or.inr (Or.inr h.2.1), h.2.2.1⟩⟩
  | h2Open b => exact Or.inr ⟨b, h.1, Or.inr ⟨h.2.2.2, h.2.1, Or.inl h.2.2.1⟩⟩
  | ready b h1 h2 => exact Or.inr ⟨b, h.1, Or.inr ⟨h.2.2.2.1, h.2.1, Or.inr h.2.2.1⟩⟩
  | raised => exact h
  | h2Done => exact h.elim
  | hfOpen => exact h.elim
  | stored => exact h.elim
  | exchOpen => exact h.elim

theorem cachedAt_exec (a : Args B H₁ H₂ O X) (k : Disk B H₁ H₂ O X) (p : Proc B H₁ H₂) (h : CachedAt a.mol k p) :
    CachedAt a.mol (exec .cached a k p).1 (exec .cached a k p).2 := by
  cases p with
  | boot =>
    change CachedAt a.mol (first .cached a k).1 (first .cached a k).2
    simp only [first]
    rcases hb : k.basis with _ | _ | b
    · rcases h with h | ⟨b, hb', _⟩
      · exact ⟨rfl, h.2⟩
      · rw [hb] at hb'; cases hb'
    · exact h
    · exact ⟨hb, h⟩
  | basisOpen b => exact ⟨rfl, Or.inr ⟨b, rfl, Or.inl ⟨Or.inl h.2.1, h.2.2⟩⟩⟩
  | haveBasis b =>
    change CachedAt a.mol (second .cached a k b).1 (second .cached a k b).2
    simp only [second]
    obtain ⟨hb, h⟩ := h
    rcases h with ⟨h | h, _⟩ | ⟨b', hb', h⟩
    · rw [hb] at h; cases h
    · rw [hb] at h; cases h
    · rw [hb] at hb'
      cases hb'
      rcases h with ⟨h1, h2⟩ | ⟨ho, h1, h2 | h2⟩
      · rw [h2]
        simp only [Option.isSome_none, Bool.and_false, Bool.false_eq_true, if_false]
        by_cases ho : a.mol.orthonormal b = true
        · rw [if_pos ho]; exact ⟨hb, rfl, rfl, ho⟩
        · rw [if_neg ho]; exact Or.inr ⟨b, hb, Or.inl ⟨h1, h2⟩⟩
      · rw [h1, h2]; exact Or.inr ⟨b, hb, Or.inr ⟨ho, h1, Or.inl h2⟩⟩
      · rw [h1, h2]; exact ⟨hb, h1, h2, ho, rfl, rfl⟩
  | h1Open b => exact ⟨h.1, rfl, h.2.2⟩
  | h1Done b => exact ⟨h.1, h.2.1, rfl, h.2.2.2⟩
  | h2Open b => exact ⟨h.1, h.2.1, rfl, h.2.2.2, rfl, rfl⟩
  | ready b h1 h2 => exact h
  | raised => exact h
  | h2Done => exact h.elim
  | hfOpen => exact h.elim
  | stored => exact h.elim
  | exchOpen => exact h.elim

/-- A complete `basis.npy` is not written again. -/
theorem cached_basis (a : Args B H₁ H₂ O X) (k : Disk B H₁ H₂ O X) (p : Proc B H₁ H₂) (h : CachedAt a.mol k p) (b : B)
    (hb : k.basis = some (some b)) : (exec .cached a k p).1.basis = some (some b) := by
  cases p with
  | boot => simp [exec, first, hb]
  | basisOpen b' => exact absurd (hb.symm.trans h.1) (by simp)
  | haveBasis b' =>
    change (second .cached a k b').1.basis = _
    simp only [second]
    split
    · split <;> exact hb
    · split <;> exact hb
  | h1Open b => exact hb
  | h1Done b => exact hb
  | h2Open b => exact hb
  | ready b h1 h2 => exact hb
  | raised => exact hb
  | h2Done => exact h.elim
  | hfOpen => exact h.elim
  | stored => exact h.elim
  | exchOpen => exact h.elim

theorem cached_inv {mol : Molecule B H₁ H₂ O X} {Allowed Killed} (hA : ∀ a, Allowed a → a.mol = mol) {rs k op}
    (h : Reach .cached Allowed Killed rs k op) :
    PastOk mol k rs ∧ match op with
      | none => CachedOk mol k
      | some (a, p) => a.mol = mol ∧ CachedAt mol k p := by
  induction h with
  | empty => exact ⟨fun r hr => (List.not_mem_nil hr).elim, Or.inl ⟨Or.inl rfl, rfl, rfl⟩⟩
  | start a _ ha ih => exact ⟨ih.1, hA a ha, ih.2⟩
  | @run rs k a p _ ih =>
    obtain ⟨hr, rfl, hp⟩ := ih
    exact ⟨fun r h => ⟨cached_basis a k p hp r.1 (hr r h).1, (hr r h).2⟩, rfl, cachedAt_exec a k p hp⟩
  | @stop rs k a p _ _ ih =>
    obtain ⟨hr, rfl, hp⟩ := ih
    refine ⟨fun r h => ?_, cachedAt_ok hp⟩
    rcases List.mem_append.mp h with h | h
    · exact hr r h
    · cases p with
      | ready b h1 h2 =>
        obtain ⟨e1, _, _, e4, rfl, rfl⟩ := hp
        rw [List.mem_singleton.mp h]
        exact ⟨e1, rfl, e4⟩
      | _ => exact (List.not_mem_nil h).elim

/-! ### `H50_1D.py` -/

/-- The points of `H50_1D.py`; the molecules of the processes are arbitrary. -/
def BasisAt (a : Args B H₁ H₂ O X) (k : Disk B H₁ H₂ O X) : Proc B H₁ H₂ → Prop
  | .boot => True
  | .basisOpen _ => k.basis = some none
  | .haveBasis b => k.basis = some (some b)
  | .ready b h1 h2 => k.basis = some (some b) ∧ a.mol.orthonormal b = true ∧ h1 = a.mol.core b ∧ h2 = a.mol.eri b
  | .raised => True
  | _ => False

theorem basisAt_exec (a : Args B H₁ H₂ O X) (k : Disk B H₁ H₂ O X) (p : Proc B H₁ H₂) (h : BasisAt a k p) :
    BasisAt a (exec .basisOnly a k p).1 (exec .basisOnly a k p).2 ∧
      ∀ b, k.basis = some (some b) → (exec .basisOnly a k p).1.basis = some (some b) := by
  cases p with
  | boot =>
    change BasisAt a (first .basisOnly a k).1 (first .basisOnly a k).2 ∧ ∀ b, k.basis = some (some b) → (first .basisOnly a k).1.basis = some (some b)
    simp only [first]
    rcases hb : k.basis with _ | _ | b
    · exact ⟨rfl, fun b h => by cases h⟩
    · exact ⟨trivial, fun b h => by cases h⟩
    · exact ⟨hb, fun b' h => by rw [← h]; exact hb⟩
  | basisOpen b => exact ⟨rfl, fun b' h' => absurd (h'.symm.trans h) (by simp)⟩
  | haveBasis b =>
    change BasisAt a (second .basisOnly a k b).1 (second .basisOnly a k b).2 ∧ ∀ b', k.basis = some (some b') → (second .basisOnly a k b).1.basis = some (some b')
    simp only [second]
    by_cases ho : a.mol.orthonormal b = true
    · rw [if_pos ho]; exact ⟨⟨h, ho, rfl, rfl⟩, fun _ h => h⟩
    · rw [if_neg ho]; exact ⟨trivial, fun _ h => h⟩
  | ready b h1 h2 => exact ⟨h, fun _ h => h⟩
  | raised => exact ⟨h, fun _ h => h⟩
  | h1Open => exact h.elim
  | h1Done => exact h.elim
  | h2Open => exact h.elim
  | h2Done => exact h.elim
  | hfOpen => exact h.elim
  | stored => exact h.elim
  | exchOpen => exact h.elim

theorem basis_inv {Allowed Killed} {rs : List (B × H₁ × H₂)} {k : Disk B H₁ H₂ O X} {op}
    (h : Reach .basisOnly Allowed Killed rs k op) :
    (∀ r ∈ rs, k.basis = some (some r.1) ∧ ∃ a, Allowed a ∧ r.2 = (a.mol.core r.1, a.mol.eri r.1) ∧ a.mol.orthonormal r.1 = true) ∧
      ∀ a p, op = some (a, p) → Allowed a ∧ BasisAt a k p := by
  induction h with
  | empty => exact ⟨fun r hr => (List.not_mem_nil hr).elim, fun a p h => by cases h⟩
  | start a _ ha ih => exact ⟨ih.1, fun a' p h => by cases h; exact ⟨ha, trivial⟩⟩
  | @run rs k a p _ ih =>
    obtain ⟨hr, hp⟩ := ih
    obtain ⟨hA, hp⟩ := hp a p rfl
    obtain ⟨h1, h2⟩ := basisAt_exec a k p hp
    exact ⟨fun r h => ⟨h2 r.1 (hr r h).1, (hr r h).2⟩, fun a' p' h => by cases h; exact ⟨hA, h1⟩⟩
  | @stop rs k a p _ _ ih =>
    obtain ⟨hr, hp⟩ := ih
    obtain ⟨hA, hp⟩ := hp a p rfl
    refine ⟨fun r h => ?_, fun a' p' h => by cases h⟩
    rcases List.mem_append.mp h with h | h
    · exact hr r h
    · cases p with
      | ready b h1 h2 =>
        obtain ⟨e1, e2, rfl, rfl⟩ := hp
        rw [List.mem_singleton.mp h]
        exact ⟨e1, a, hA, rfl, e2⟩
      | _ => exact (List.not_mem_nil h).elim

/-! ### `get_molecular_system` -/

/-- The files are complete and belong to one basis; the last one may be truncated. -/
def Complete (mol : Molecule B H₁ H₂ O X) (k : Disk B H₁ H₂ O X) (b : B) : Prop :=
  k.basis = some (some b) ∧ k.h1 = some (some (mol.core b)) ∧ k.h2 = some (some (mol.eri b)) ∧ mol.orthonormal b = true ∧
    (k.exch = none ∨ k.exch = some none ∨ k.exch = some (some (mol.exchange b)))

/-- The files of `get_molecular_system`. -/
def AllOk (mol : Molecule B H₁ H₂ O X) (k : Disk B H₁ H₂ O X) : Prop :=
  (k.hf = none ∧ k.exch = none) ∨ ∃ b, Complete mol k b ∧ (k.hf = some (some (mol.orbitals b)) ∨ k.hf = some none ∧ k.exch = none)

/-- The files and the point of the program. -/
def AllAt (a : Args B H₁ H₂ O X) (k : Disk B H₁ H₂ O X) : Proc B H₁ H₂ → Prop
  | .boot => AllOk a.mol k
  | .basisOpen b => k.hf = none ∧ k.exch = none ∧ a.mol.orthonormal b = true
  | .haveBasis b => k.hf = none ∧ k.exch = none ∧ k.basis = some (some b) ∧ a.mol.orthonormal b = true
  | .h1Open b => k.hf = none ∧ k.exch = none ∧ k.basis = some (some b) ∧ a.mol.orthonormal b = true
  | .h1Done b => k.hf = none ∧ k.exch = none ∧ k.basis = some (some b) ∧ k.h1 = some (some (a.mol.core b)) ∧ a.mol.orthonormal b = true
  | .h2Open b => k.hf = none ∧ k.exch = none ∧ k.basis = some (some b) ∧ k.h1 = some (some (a.mol.core b)) ∧ a.mol.orthonormal b = true
  | .h2Done b => k.hf = none ∧ k.exch = none ∧ Complete a.mol k b
  | .hfOpen b => k.hf = some none ∧ k.exch = none ∧ Complete a.mol k b
  | .stored b h1 h2 => k.hf = some (some (a.mol.orbitals b)) ∧ Complete a.mol k b ∧ h1 = a.mol.core b ∧ h2 = a.mol.eri b
  | .exchOpen b h1 h2 => k.hf = some (some (a.mol.orbitals b)) ∧ Complete a.mol k b ∧ h1 = a.mol.core b ∧ h2 = a.mol.eri b
  | .ready b h1 h2 => k.hf = some (some (a.mol.orbitals b)) ∧ Complete a.mol k b ∧ h1 = a.mol.core b ∧ h2 = a.mol.eri b ∧
      (a.store = true → k.exch ≠ none)
  | .raised => AllOk a.mol k

theorem allAt_ok {a : Args B H₁ H₂ O X} {k : Disk B H₁ H₂ O X} {p : Proc B H₁ H₂} (h : AllAt a k p) : AllOk a.mol k := by
  cases p with
  | boot => exact h
  | raised => exact h
  | basisOpen b => exact Or.inl ⟨h.1, h.2.1⟩
  | haveBasis b => exact Or.inl ⟨h.1, h.2.1⟩
  | h1Open b => exact Or.inl ⟨h.1, h.2.1⟩
  | h1Done b => exact Or.inl ⟨h.1, h.2.1⟩
  | h2Open b => exact Or.inl ⟨h.1, h.2.1⟩
  | h2Done b => exact Or.inl ⟨h.1, h.2.1⟩
  | hfOpen b => exact Or.inr ⟨b, h.2.2, Or.inr ⟨h.1, h.2.1⟩⟩
  | stored b h1 h2 => exact Or.inr ⟨b, h.2.1, Or.inl h.1⟩
  | exchOpen b h1 h2 => exact Or.inr ⟨b, h.2.1, Or.inl h.1⟩
  | ready b h1 h2 => exact Or.inr ⟨b, h.2.1, Or.inl h.1⟩

theorem allAt_exec (a : Args B H₁ H₂ O X) (k : Disk B H₁ H₂ O X) (p : Proc B H₁ H₂) (h : AllAt a k p) :
    AllAt a (exec .allOrNone a k p).1 (exec .allOrNone a k p).2 := by
  cases p with
  | boot =>
    change AllAt a (first .allOrNone a k).1 (first .allOrNone a k).2
    simp only [first]
    rcases h with ⟨h1, h2⟩ | ⟨b, hc, hf | hf⟩
    · rw [h1]
      simp only [Option.isSome_none, Bool.and_false, Bool.false_eq_true, if_false]
      by_cases ho : a.mol.orthonormal a.fresh = true
      · rw [if_pos ho]; exact ⟨rfl, h2, ho⟩
      · rw [if_neg ho]; exact Or.inl ⟨h1, h2⟩
    · rw [hc.1, hc.2.1, hc.2.2.1, hf]
      exact ⟨hf, hc, rfl, rfl⟩
    · rw [hc.1, hc.2.1, hc.2.2.1, hf.1]
      exact Or.inr ⟨b, hc, Or.inr hf⟩
  | basisOpen b => exact ⟨h.1, h.2.1, rfl, h.2.2⟩
  | haveBasis b => exact h
  | h1Open b => exact ⟨h.1, h.2.1, h.2.2.1, rfl, h.2.2.2⟩
  | h1Done b => exact h
  | h2Open b => exact ⟨h.1, h.2.1, h.2.2.1, h.2.2.2.1, rfl, h.2.2.2.2, Or.inl h.2.1⟩
  | h2Done b => exact ⟨rfl, h.2⟩
  | hfOpen b => exact ⟨rfl, h.2.2, rfl, rfl⟩
  | stored b h1 h2 =>
    simp only [exec]
    obtain ⟨hf, hc, e1, e2⟩ := h
    by_cases hs : (a.store && k.exch.isNone) = true
    · rw [if_pos hs]
      exact ⟨hf, ⟨hc.1, hc.2.1, hc.2.2.1, hc.2.2.2.1, Or.inr (Or.inl rfl)⟩, e1, e2⟩
    · rw [if_neg hs]
      refine ⟨hf, hc, e1, e2, fun hst hx => hs ?_⟩
      rw [hst, hx]; rfl
  | exchOpen b h1 h2 =>
    obtain ⟨hf, hc, e1, e2⟩ := h
    exact ⟨hf, ⟨hc.1, hc.2.1, hc.2.2.1, hc.2.2.2.1, Or.inr (Or.inr rfl)⟩, e1, e2, fun _ h => by cases h⟩
  | ready b h1 h2 => exact h
  | raised => exact h

/-- Once the orbitals are stored the other files are not written again. -/
theorem all_basis (a : Args B H₁ H₂ O X) (k : Disk B H₁ H₂ O X) (p : Proc B H₁ H₂) (h : AllAt a k p) (o : O)
    (hf : k.hf = some (some o)) : (exec .allOrNone a k p).1.basis = k.basis ∧ (exec .allOrNone a k p).1.hf = k.hf := by
  have hn : k.hf ≠ none := by rw [hf]; exact fun h => by cases h
  cases p with
  | boot =>
    change (first .allOrNone a k).1.basis = k.basis ∧ (first .allOrNone a k).1.hf = k.hf
    simp only [first]
    rcases h with ⟨h1, _⟩ | ⟨b, hc, hf' | hf'⟩
    · exact absurd h1 hn
    · rw [hc.1, hc.2.1, hc.2.2.1, hf']; exact ⟨hc.1, hf'⟩
    · rw [hf] at hf'; exact absurd hf'.1 (by simp)
  | basisOpen b => exact absurd h.1 hn
  | haveBasis b => exact absurd h.1 hn
  | h1Open b => exact absurd h.1 hn
  | h1Done b => exact absurd h.1 hn
  | h2Open b => exact absurd h.1 hn
  | h2Done b => exact absurd h.1 hn
  | hfOpen b => exact absurd (hf.symm.trans h.1) (by simp)
  | stored b h1 h2 => simp only [exec]; split <;> exact ⟨rfl, rfl⟩
  | exchOpen b h1 h2 => exact ⟨rfl, rfl⟩
  | ready b h1 h2 => exact ⟨rfl, rfl⟩
  | raised => exact ⟨rfl, rfl⟩

theorem all_inv {mol : Molecule B H₁ H₂ O X} {Allowed Killed} (hA : ∀ a, Allowed a → a.mol = mol) {rs k op}
    (h : Reach .allOrNone Allowed Killed rs k op) :
    (∀ r ∈ rs, (k.basis = some (some r.1) ∧ r.2 = (mol.core r.1, mol.eri r.1) ∧ mol.orthonormal r.1 = true) ∧ ∃ o, k.hf = some (some o)) ∧
      match op with
      | none => AllOk mol k
      | some (a, p) => a.mol = mol ∧ AllAt a k p := by
  induction h with
  | empty => exact ⟨fun r hr => (List.not_mem_nil hr).elim, Or.inl ⟨rfl, rfl⟩⟩
  | start a _ ha ih => obtain rfl := hA a ha; exact ⟨ih.1, rfl, ih.2⟩
  | @run rs k a p _ ih =>
    obtain ⟨hr, rfl, hp⟩ := ih
    refine ⟨fun r h => ?_, rfl, allAt_exec a k p hp⟩
    obtain ⟨⟨e1, e2⟩, o, ho⟩ := hr r h
    obtain ⟨f1, f2⟩ := all_basis a k p hp o ho
    exact ⟨⟨f1.trans e1, e2⟩, o, f2.trans ho⟩
  | @stop rs k a p _ _ ih =>
    obtain ⟨hr, rfl, hp⟩ := ih
    refine ⟨fun r h => ?_, allAt_ok hp⟩
    rcases List.mem_append.mp h with h | h
    · exact hr r h
    · cases p with
      | ready b h1 h2 =>
        obtain ⟨e1, e2, rfl, rfl, _⟩ := hp
        rw [List.mem_singleton.mp h]
        exact ⟨⟨e2.1, rfl, e2.2.2.2.1⟩, _, e1⟩
      | _ => exact (List.not_mem_nil h).elim

/-! ## C123: one Hamiltonian for all processes -/

/-- **C123**: in every history of kills and restarts with one molecule, whatever basis each process would compute, every process that gets
to work — earlier ones and the present one — uses the integrals of the molecule in an orthonormal basis, which is the one in `basis.npy`. -/
theorem C123 (s : Script) (mol : Molecule B H₁ H₂ O X) {Killed rs k op} (h : Reach s (fun a => a.mol = mol) Killed rs k op) :
    ∀ r ∈ rs ++ current op, r.2 = (mol.core r.1, mol.eri r.1) ∧ mol.orthonormal r.1 = true ∧ k.basis = some (some r.1) := by
  have key : (∀ r ∈ rs, k.basis = some (some r.1) ∧ r.2 = (mol.core r.1, mol.eri r.1) ∧ mol.orthonormal r.1 = true) ∧
      ∀ a b h1 h2, op = some (a, .ready b h1 h2) → k.basis = some (some b) ∧ (h1, h2) = (mol.core b, mol.eri b) ∧ mol.orthonormal b = true := by
    cases s with
    | cached =>
      obtain ⟨h1, h2⟩ := cached_inv (fun a h => h) h
      refine ⟨h1, fun a b g1 g2 e => ?_⟩
      subst e
      obtain ⟨rfl, e1, _, _, e4, rfl, rfl⟩ := h2
      exact ⟨e1, rfl, e4⟩
    | basisOnly =>
      obtain ⟨h1, h2⟩ := basis_inv h
      refine ⟨fun r hr => ?_, fun a b g1 g2 e => ?_⟩
      · obtain ⟨e1, a, rfl, e2⟩ := h1 r hr; exact ⟨e1, e2⟩
      · obtain ⟨rfl, e1, e2, rfl, rfl⟩ := h2 _ _ e
        exact ⟨e1, rfl, e2⟩
    | allOrNone =>
      obtain ⟨h1, h2⟩ := all_inv (fun a h => h) h
      refine ⟨fun r hr => (h1 r hr).1, fun a b g1 g2 e => ?_⟩
      subst e
      obtain ⟨rfl, _, hc, rfl, rfl, _⟩ := h2
      exact ⟨hc.1, rfl, hc.2.2.2.1⟩
  intro r hr
  rcases List.mem_append.mp hr with hr | hr
  · obtain ⟨e1, e2, e3⟩ := key.1 r hr; exact ⟨e2, e3, e1⟩
  · rcases op with _ | ⟨a, p⟩
    · exact (List.not_mem_nil hr).elim
    · cases p with
      | ready b h1 h2 =>
        obtain ⟨e1, e2, e3⟩ := key.2 a b h1 h2 rfl
        rw [List.mem_singleton.mp hr]
        exact ⟨e2, e3, e1⟩
      | _ => exact (List.not_mem_nil hr).elim

/-- **C123**: so all processes of the history calculate with the same integrals in the same basis: parameters saved by one of them mean
the same for the next one. -/
theorem C123_same (s : Script) (mol : Molecule B H₁ H₂ O X) {Killed rs k op} (h : Reach s (fun a => a.mol = mol) Killed rs k op) :
    ∀ r ∈ rs ++ current op, ∀ r' ∈ rs ++ current op, r = r' := by
  intro r hr r' hr'
  obtain ⟨e1, _, e3⟩ := C123 s mol h r hr
  obtain ⟨f1, _, f3⟩ := C123 s mol h r' hr'
  have e : r.1 = r'.1 := Option.some.inj (Option.some.inj (e3.symm.trans f3))
  exact Prod.ext e (by rw [e1, f1, e])

/-! ## C124: starting again -/

/-- `n` operations of a process. -/
def runs (s : Script) (a : Args B H₁ H₂ O X) : Nat → Disk B H₁ H₂ O X × Proc B H₁ H₂ → Disk B H₁ H₂ O X × Proc B H₁ H₂
  | 0, st => st
  | n + 1, st => runs s a n (exec s a st.1 st.2)

/-- A file that has been opened but not written. -/
def Truncated (s : Script) (k : Disk B H₁ H₂ O X) : Prop :=
  match s with
  | .cached => k.basis = some none ∨ k.h2 = some none
  | .basisOnly => k.basis = some none
  | .allOrNone => k.hf = some none

/-- A process that is started gets to work. -/
def Works (s : Script) (a : Args B H₁ H₂ O X) (k : Disk B H₁ H₂ O X) : Prop :=
  ∃ n b h1 h2, (runs s a n (k, .boot)).2 = .ready b h1 h2

theorem works_all (a : Args B H₁ H₂ O X) (k : Disk B H₁ H₂ O X) (ho : a.mol.orthonormal a.fresh = true) (hf : k.hf = none) :
    Works .allOrNone a k := by
  by_cases hs : (a.store && k.exch.isNone) = true
  · refine ⟨11, a.fresh, a.mol.core a.fresh, a.mol.eri a.fresh, ?_⟩
    simp [runs, exec, first, second, hf, ho, hs]
  · refine ⟨10, a.fresh, a.mol.core a.fresh, a.mol.eri a.fresh, ?_⟩
    simp [runs, exec, first, second, hf, ho, hs]

theorem works_loaded (a : Args B H₁ H₂ O X) (k : Disk B H₁ H₂ O X) {b h1 h2 o} (hb : k.basis = some (some b)) (e1 : k.h1 = some (some h1))
    (e2 : k.h2 = some (some h2)) (hf : k.hf = some (some o)) : Works .allOrNone a k := by
  by_cases hs : (a.store && k.exch.isNone) = true
  · exact ⟨3, b, h1, h2, by simp [runs, exec, first, load2, hb, e1, e2, hf, hs]⟩
  · exact ⟨2, b, h1, h2, by simp [runs, exec, first, load2, hb, e1, e2, hf, hs]⟩

/-- Processes that localise to orthonormal bases leave such bases. -/
theorem orthonormal_inv (s : Script) {mol : Molecule B H₁ H₂ O X} {Killed rs k op}
    (h : Reach s (fun a => a.mol = mol ∧ mol.orthonormal a.fresh = true) Killed rs k op) :
    (∀ b, k.basis = some (some b) → mol.orthonormal b = true) ∧
      ∀ a p, op = some (a, p) → mol.orthonormal a.fresh = true ∧ ∀ b, p = .basisOpen b → mol.orthonormal b = true := by
  induction h with
  | empty => exact ⟨fun b h => (by cases h), fun a p h => (by cases h)⟩
  | start a _ ha ih => exact ⟨ih.1, fun a' p h => by cases h; exact ⟨ha.2, fun b h => by cases h⟩⟩
  | @run rs k a p _ ih =>
    obtain ⟨i1, i2⟩ := ih
    obtain ⟨i4, i3⟩ := i2 a p rfl
    have key : (∀ b, (exec s a k p).1.basis = some (some b) → mol.orthonormal b = true) ∧
        ∀ b, (exec s a k p).2 = .basisOpen b → mol.orthonormal b = true := by
      cases p with
      | boot =>
        change (∀ b, (first s a k).1.basis = some (some b) → mol.orthonormal b = true) ∧ ∀ b, (first s a k).2 = .basisOpen b → mol.orthonormal b = true
        unfold first
        constructor
        · intro b
          repeat' split
          all_goals first | exact i1 b | (intro h; cases h)
        · intro b
          repeat' split
          all_goals (intro h; cases h)
          all_goals exact i4
      | basisOpen b =>
        exact ⟨fun b' h => by cases h; exact i3 b rfl, fun b' h => by cases h⟩
      | haveBasis b =>
        change (∀ b', (second s a k b).1.basis = some (some b') → mol.orthonormal b' = true) ∧ ∀ b', (second s a k b).2 = .basisOpen b' → mol.orthonormal b' = true
        unfold second
        constructor
        · intro b
          repeat' split
          all_goals exact i1 b
        · intro b
          repeat' split
          all_goals (intro h; cases h)
      | h1Open b => exact ⟨i1, fun b' h => by cases h⟩
      | h1Done b => exact ⟨i1, fun b' h => by cases h⟩
      | h2Open b => exact ⟨i1, fun b' h => by cases s <;> cases h⟩
      | h2Done b => exact ⟨i1, fun b' h => by cases h⟩
      | hfOpen b => exact ⟨i1, fun b' h => by cases h⟩
      | stored b h1 h2 =>
        simp only [exec]
        split
        · exact ⟨i1, fun b' h => by cases h⟩
        · exact ⟨i1, fun b' h => by cases h⟩
      | exchOpen b h1 h2 => exact ⟨i1, fun b' h => by cases h⟩
      | ready b h1 h2 => exact ⟨i1, fun b' h => by cases h⟩
      | raised => exact ⟨i1, fun b' h => by cases h⟩
    exact ⟨key.1, fun a' p' h => by cases h; exact ⟨i4, key.2⟩⟩
  | stop _ _ ih => exact ⟨ih.1, fun a p h => by cases h⟩

/-- **C124**, what holds: in every history of kills and restarts with one molecule (and localisations that give orthonormal bases), a
process that is started gets to work if no file was left truncated (`Truncated` tells which files matter). -/
theorem C124_partial (s : Script) (mol : Molecule B H₁ H₂ O X) {Killed rs k}
    (h : Reach s (fun a => a.mol = mol ∧ mol.orthonormal a.fresh = true) Killed rs k none) (ht : ¬ Truncated s k)
    (a : Args B H₁ H₂ O X) (ha : a.mol = mol) (ho : mol.orthonormal a.fresh = true) : Works s a k := by
  have hob := (orthonormal_inv s h).1
  subst ha
  cases s with
  | cached =>
    obtain ⟨_, hk⟩ := cached_inv (fun a h => h.1) h
    rcases hk with ⟨hb | hb, e1, e2⟩ | ⟨b, hb, ⟨_, e2⟩ | ⟨_, e1, e2 | e2⟩⟩
    · exact ⟨6, a.fresh, a.mol.core a.fresh, a.mol.eri a.fresh, by simp [runs, exec, first, second, hb, e2, ho]⟩
    · exact absurd (Or.inl hb) ht
    · have := hob b hb
      exact ⟨5, b, a.mol.core b, a.mol.eri b, by simp [runs, exec, first, second, hb, e2, this]⟩
    · exact absurd (Or.inr e2) ht
    · exact ⟨2, b, a.mol.core b, a.mol.eri b, by simp [runs, exec, first, second, load2, hb, e1, e2]⟩
  | basisOnly =>
    rcases hb : k.basis with _ | _ | b
    · exact ⟨3, a.fresh, a.mol.core a.fresh, a.mol.eri a.fresh, by simp [runs, exec, first, second, hb, ho]⟩
    · exact absurd hb ht
    · have := hob b hb
      exact ⟨2, b, a.mol.core b, a.mol.eri b, by simp [runs, exec, first, second, hb, this]⟩
  | allOrNone =>
    obtain ⟨_, hk⟩ := all_inv (fun a h => h.1) h
    rcases hk with ⟨hf, _⟩ | ⟨b, hc, hf | hf⟩
    · exact works_all a k ho hf
    · exact works_loaded a k hc.1 hc.2.1 hc.2.2.1 hf
    · exact absurd hf.1 ht

/-- **C124**, otherwise: after a kill that left such a file truncated every process raises an exception and changes nothing, so that no
process ever gets to work again. -/
theorem C124_stuck (s : Script) (mol : Molecule B H₁ H₂ O X) {Killed rs k}
    (h : Reach s (fun a => a.mol = mol) Killed rs k none) (ht : Truncated s k) (a : Args B H₁ H₂ O X) (n : Nat) :
    (runs s a (n + 2) (k, .boot)) = (k, .raised) := by
  have hr : ∀ n, runs s a n (k, .raised) = (k, .raised) := fun n => by
    induction n with
    | zero => rfl
    | succ n ih => exact ih
  have two : runs s a 2 (k, .boot) = (k, .raised) → runs s a (n + 2) (k, .boot) = (k, .raised) := by
    intro h2
    change runs s a n (runs s a 2 (k, .boot)) = _
    rw [h2, hr]
  apply two
  cases s with
  | cached =>
    obtain ⟨_, hk⟩ := cached_inv (fun a h => h) h
    rcases hk with ⟨hb | hb, e1, e2⟩ | ⟨b, hb, ⟨_, e2⟩ | ⟨_, e1, e2 | e2⟩⟩
    · rcases ht with ht | ht
      · rw [hb] at ht; cases ht
      · rw [e2] at ht; cases ht
    · simp [runs, exec, first, hb]
    · rcases ht with ht | ht
      · rw [hb] at ht; cases ht
      · rw [e2] at ht; cases ht
    · simp [runs, exec, first, second, load2, hb, e1, e2]
    · rcases ht with ht | ht
      · rw [hb] at ht; cases ht
      · rw [e2] at ht; cases ht
  | basisOnly =>
    replace ht : k.basis = some none := ht
    simp [runs, exec, first, ht]
  | allOrNone =>
    replace ht : k.hf = some none := ht
    obtain ⟨_, hk⟩ := all_inv (fun a h => h) h
    rcases hk with ⟨hf, _⟩ | ⟨b, hc, hf | hf⟩
    · rw [hf] at ht; cases ht
    · rw [hf] at ht; cases ht
    · simp [runs, exec, first, load2, hc.1, hc.2.1, hc.2.2.1, hf.1]

/-- A process that has done `n` operations in a fresh directory. -/
theorem reach_runs (s : Script) (Allowed : Args B H₁ H₂ O X → Prop) (Killed) {rs k} (h : Reach s Allowed Killed rs k none)
    (a : Args B H₁ H₂ O X) (ha : Allowed a) (n : Nat) :
    Reach s Allowed Killed rs (runs s a n (k, .boot)).1 (some (a, (runs s a n (k, .boot)).2)) := by
  have gen : ∀ n k p, Reach s Allowed Killed rs k (some (a, p)) →
      Reach s Allowed Killed rs (runs s a n (k, p)).1 (some (a, (runs s a n (k, p)).2)) := by
    intro n
    induction n with
    | zero => exact fun k p h => h
    | succ n ih => exact fun k p h => ih _ _ (.run h)
  exact gen n k .boot (.start a h ha)

/-- What is missing from **C124**: with every molecule, a kill of the first process while it writes a file (`basis.npy`; `h2.npy`;
`hf_orbitals.npy` in the backflow scripts) leaves a directory in which no process gets to work. -/
theorem C124_fails (s : Script) (a : Args B H₁ H₂ O X) (ho : a.mol.orthonormal a.fresh = true) :
    ∃ rs k, Reach s (fun a' => a'.mol = a.mol ∧ a.mol.orthonormal a'.fresh = true) (fun _ => True) rs k none ∧
      ∀ a' : Args B H₁ H₂ O X, ¬ Works s a' k := by
  have main : ∀ n, Truncated s (runs s a n (Disk.empty, .boot)).1 → ∃ rs k,
      Reach s (fun a' => a'.mol = a.mol ∧ a.mol.orthonormal a'.fresh = true) (fun _ => True) rs k none ∧ ∀ a' : Args B H₁ H₂ O X, ¬ Works s a' k := by
    intro n ht
    refine ⟨_, _, .stop (reach_runs s _ _ .empty a ⟨rfl, ho⟩ n) trivial, ?_⟩
    intro a' ⟨m, b, h1, h2, hm⟩
    have hr : Reach s (fun a' => a'.mol = a.mol) (fun _ => True) _ (runs s a n (Disk.empty, .boot)).1 none :=
      .stop (reach_runs s (fun a' => a'.mol = a.mol) _ .empty a rfl n) trivial
    have hst := C124_stuck s a.mol hr ht a'
    rcases m with _ | _ | m
    · cases hm
    · have h2 := hst 0
      change exec s a' (exec s a' _ .boot).1 (exec s a' _ .boot).2 = _ at h2
      change (exec s a' _ .boot).2 = _ at hm
      rw [hm] at h2
      exact absurd (congrArg Prod.snd h2) (by simp [exec])
    · rw [hst m] at hm; cases hm
  cases s with
  | cached => exact main 1 (Or.inl rfl)
  | basisOnly => exact main 1 rfl
  | allOrNone => exact main 7 (by simp [runs, exec, first, second, Disk.empty, ho, Truncated])

/-- Likewise for a kill while `h2.npy` is written by `H2O.py` or `H4x4x4.py`. -/
theorem C124_fails_h2 (a : Args B H₁ H₂ O X) (ho : a.mol.orthonormal a.fresh = true) :
    ∃ rs k, Reach .cached (fun a' => a'.mol = a.mol) (fun _ => True) rs k none ∧ k.basis = some (some a.fresh) ∧ Truncated .cached k := by
  refine ⟨_, _, .stop (reach_runs .cached (fun a' => a'.mol = a.mol) _ .empty a rfl 5) trivial, ?_, ?_⟩
  · simp [runs, exec, first, second, Disk.empty, ho]
  · simp [runs, exec, first, second, Disk.empty, ho, Truncated]

/-! ## C125: the molecule and the basis of the arguments -/

/-- **C125** for `H50_1D.py`: whatever molecules the earlier processes had, a process that gets to work uses the integrals of its own
molecule, in a basis that is orthonormal for it. -/
theorem C125_partial {Allowed Killed} {rs : List (B × H₁ × H₂)} {k : Disk B H₁ H₂ O X} {a b h1 h2}
    (h : Reach .basisOnly Allowed Killed rs k (some (a, .ready b h1 h2))) :
    h1 = a.mol.core b ∧ h2 = a.mol.eri b ∧ a.mol.orthonormal b = true := by
  obtain ⟨_, _, e2, e3, e4⟩ := (basis_inv h).2 _ _ rfl
  exact ⟨e3, e4, e2⟩

/-- What is missing from **C125** for the other scripts: a process started for another molecule (`H4x4x4.py` with another distance, or another
configuration of the backflow scripts in the same directory) silently uses the integrals of the molecule of the first process. -/
theorem C125_fails (s : Script) (hs : s ≠ .basisOnly) (a a' : Args B H₁ H₂ O X) (ho : a.mol.orthonormal a.fresh = true) :
    ∃ rs k, Reach s (fun _ => True) (fun _ => True) rs k (some (a', .ready a.fresh (a.mol.core a.fresh) (a.mol.eri a.fresh))) := by
  have main : ∀ n m, (runs s a' m ((runs s a n (Disk.empty, .boot)).1, .boot)).2 = .ready a.fresh (a.mol.core a.fresh) (a.mol.eri a.fresh) →
      ∃ rs k, Reach s (fun _ => True) (fun _ => True) rs k (some (a', .ready a.fresh (a.mol.core a.fresh) (a.mol.eri a.fresh))) := by
    intro n m e
    have h1 : Reach s (fun _ => True) (fun _ => True) _ (runs s a n (Disk.empty, .boot)).1 none :=
      .stop (reach_runs s _ _ .empty a trivial n) trivial
    have h2 := reach_runs s _ _ h1 a' trivial m
    rw [e] at h2
    exact ⟨_, _, h2⟩
  cases s with
  | cached => exact main 6 2 (by simp [runs, exec, first, second, load2, Disk.empty, ho])
  | basisOnly => exact absurd rfl hs
  | allOrNone =>
    by_cases hst : a'.store = true
    · exact main 8 3 (by simp [runs, exec, first, second, load2, Disk.empty, ho, hst])
    · exact main 8 2 (by simp [runs, exec, first, second, load2, Disk.empty, ho, hst])

/-- What is missing from **C125** for all scripts: a process that asks for another basis of the same molecule (the argument `basis_type`
of `H2O.py`) silently works in the basis of the first process. -/
theorem C125_fails_basis (a a' : Args B H₁ H₂ O X) (hm : a'.mol = a.mol) (ho : a.mol.orthonormal a.fresh = true) :
    ∃ rs k, Reach .basisOnly (fun _ => True) (fun _ => True) rs k (some (a', .ready a.fresh (a.mol.core a.fresh) (a.mol.eri a.fresh))) := by
  have h1 : Reach .basisOnly (fun _ => True) (fun _ => True) _ (runs .basisOnly a 2 (Disk.empty, .boot)).1 none :=
    .stop (reach_runs .basisOnly _ _ .empty a trivial 2) trivial
  have h2 := reach_runs .basisOnly _ _ h1 a' trivial 2
  have e : (runs .basisOnly a' 2 ((runs .basisOnly a 2 (Disk.empty, .boot)).1, .boot)).2 = .ready a.fresh (a.mol.core a.fresh) (a.mol.eri a.fresh) := by
    simp [runs, exec, first, second, Disk.empty, ho, hm]
  rw [e] at h2
  exact ⟨_, _, h2⟩

/-! ## C126: the other files of the backflow scripts -/

/-- **C126**, what holds: in every history with one molecule, when a process of the backflow scripts gets to work `hf_orbitals.npy` has the
Hartree-Fock orbitals in the basis it works in, and `exchange.npy`, if it needs it, exists and has the exchange matrix in this basis, unless it
is truncated. -/
theorem C126_partial (mol : Molecule B H₁ H₂ O X) {Killed rs k a b h1 h2}
    (h : Reach .allOrNone (fun a => a.mol = mol) Killed rs k (some (a, .ready b h1 h2))) :
    k.hf = some (some (mol.orbitals b)) ∧ (a.store = true → k.exch = some none ∨ k.exch = some (some (mol.exchange b))) := by
  obtain ⟨_, rfl, e1, hc, _, _, e2⟩ := all_inv (fun a h => h) h
  refine ⟨e1, fun hs => ?_⟩
  rcases hc.2.2.2.2 with h | h | h
  · exact absurd h (e2 hs)
  · exact Or.inl h
  · exact Or.inr h

/-- **C126**: if no process is killed while it writes `exchange.npy`, that file is not truncated. -/
theorem C126_partial_exchange (mol : Molecule B H₁ H₂ O X) {Killed rs k a b h1 h2} (hK : ∀ b h1 h2, ¬ Killed (.exchOpen b h1 h2))
    (h : Reach .allOrNone (fun a => a.mol = mol) Killed rs k (some (a, .ready b h1 h2))) (hs : a.store = true) :
    k.exch = some (some (mol.exchange b)) := by
  have key : ∀ rs k op, Reach .allOrNone (fun a => a.mol = mol) Killed rs k op →
      (∀ a p, op = some (a, p) → k.exch = some none → ∃ b h1 h2, p = .exchOpen b h1 h2) ∧ (op = none → k.exch ≠ some none) := by
    intro rs k op h
    induction h with
    | empty => exact ⟨fun a p h => (by cases h), fun _ h => (by cases h)⟩
    | start a _ _ ih => exact ⟨fun a p _ hx => absurd hx (ih.2 rfl), fun h => by cases h⟩
    | @run rs k a p _ ih =>
      refine ⟨fun a' p' h hx => ?_, fun h => by cases h⟩
      cases h
      by_cases hk : k.exch = some none
      · obtain ⟨b, h1, h2, rfl⟩ := ih.1 a p rfl hk
        cases hx
      · cases p with
        | boot =>
          exfalso
          revert hx
          change (first .allOrNone a k).1.exch = some none → False
          simp only [first]
          repeat' split
          all_goals exact hk
        | stored b h1 h2 =>
          simp only [exec] at hx ⊢
          by_cases hc : (a.store && k.exch.isNone) = true
          · rw [if_pos hc]; exact ⟨b, h1, h2, rfl⟩
          · rw [if_neg hc] at hx; exact absurd hx hk
        | exchOpen b h1 h2 => cases hx
        | _ => exact absurd hx hk
    | @stop rs k a p _ hp ih =>
      refine ⟨fun a p h => (by cases h), fun _ hx => ?_⟩
      obtain ⟨b, h1, h2, rfl⟩ := ih.1 a p rfl hx
      exact hK b h1 h2 hp
  rcases (C126_partial mol h).2 hs with hx | hx
  · obtain ⟨_, _, _, e⟩ := (key _ _ _ h).1 _ _ rfl hx
    cases e
  · exact hx

/-- What is missing from **C126**: after a kill while `exchange.npy` is written the file stays truncated in all later processes, which
therefore cannot load it. -/
theorem C126_fails (a a' : Args B H₁ H₂ O X) (hm : a'.mol = a.mol) (ho : a.mol.orthonormal a.fresh = true) (hs : a.store = true) :
    ∃ rs k, Reach .allOrNone (fun a' => a'.mol = a.mol) (fun _ => True) rs k
      (some (a', .ready a.fresh (a.mol.core a.fresh) (a.mol.eri a.fresh))) ∧ k.exch = some none := by
  have h1 : Reach .allOrNone (fun a' => a'.mol = a.mol) (fun _ => True) _ (runs .allOrNone a 9 (Disk.empty, .boot)).1 none :=
    .stop (reach_runs .allOrNone (fun a' => a'.mol = a.mol) _ .empty a rfl 9) trivial
  have h2 := reach_runs .allOrNone _ _ h1 a' hm 2
  have e : runs .allOrNone a' 2 ((runs .allOrNone a 9 (Disk.empty, .boot)).1, .boot) =
      ((runs .allOrNone a 9 (Disk.empty, .boot)).1, .ready a.fresh (a.mol.core a.fresh) (a.mol.eri a.fresh)) := by
    simp [runs, exec, first, second, load2, Disk.empty, ho, hs]
  rw [e] at h2
  exact ⟨_, _, h2, by simp [runs, exec, first, second, Disk.empty, ho, hs]⟩

/-! ## C127: the broadcast -/

theorem bcast_fold {α : Type} (l : List (Nat × Nat)) (ranks : Nat → Rank α) (r i j : Nat) :
    ((l.foldl bcastSlice ranks) r).h2 i j = if (i, j) ∈ l then (ranks 0).h2 i j else (ranks r).h2 i j := by
  induction l generalizing ranks with
  | nil => simp
  | cons ij l ih =>
    rw [List.foldl_cons, ih]
    have hs : ∀ r, (bcastSlice ranks ij r).h2 i j = if i = ij.1 ∧ j = ij.2 then (ranks 0).h2 i j else (ranks r).h2 i j := by
      intro r
      simp only [bcastSlice]
      split
      · rename_i h; rw [h.1, h.2]
      · rfl
    rw [hs, hs]
    by_cases h : i = ij.1 ∧ j = ij.2
    · have : (i, j) = ij := Prod.ext h.1 h.2
      simp [h]
    · have : (i, j) ≠ ij := fun e => h ⟨congrArg Prod.fst e, congrArg Prod.snd e⟩
      simp [h, this]

/-- **C127**: after the loop every rank has the two-electron integrals of rank 0 (which are unchanged), whatever it had before. -/
theorem C127 {α : Type} (n₀ n₁ : Nat) (ranks : Nat → Rank α) (r i j : Nat) (hi : i < n₀) (hj : j < n₁) :
    (bcastSlices n₀ n₁ ranks r).h2 i j = (ranks 0).h2 i j := by
  unfold bcastSlices
  rw [bcast_fold, if_pos]
  simp only [List.mem_flatMap, List.mem_map, List.mem_range]
  exact ⟨i, hi, j, hj, rfl⟩

/-! ## The hypotheses are met -/

/-- A molecule whose integrals tell the basis. -/
def tinyMol : Molecule Nat Nat Nat Nat Nat := ⟨fun b => b != 0, fun b => b + 10, fun b => b + 20, fun b => b + 30, fun b => b + 40⟩

/-- A first process is killed after `basis.npy` is stored; a second one, whose own basis would be different, uses the stored one in `H2O.py`;
the backflow scripts replace it. -/
example : (runs .cached ⟨tinyMol, 2, false⟩ 5 ((runs .cached ⟨tinyMol, 1, false⟩ 2 (Disk.empty, .boot)).1, .boot)).2 = .ready 1 11 21 ∧
    (runs .allOrNone ⟨tinyMol, 2, true⟩ 11 ((runs .allOrNone ⟨tinyMol, 1, true⟩ 2 (Disk.empty, .boot)).1, .boot)).2 = .ready 2 12 22 := ⟨rfl, rfl⟩

/-- A history with three processes, two of which get to work. -/
example : ∃ k, Reach .cached (fun a => a.mol = tinyMol) (fun _ => True) [(1, 11, 21)] k (some (⟨tinyMol, 3, false⟩, .ready 1 11 21)) := by
  have h0 : Reach .cached (fun a => a.mol = tinyMol) (fun _ => True) [] (runs .cached ⟨tinyMol, 1, false⟩ 3 (Disk.empty, .boot)).1 none :=
    .stop (reach_runs .cached (fun a => a.mol = tinyMol) _ .empty ⟨tinyMol, 1, false⟩ rfl 3) trivial
  have h1 : Reach .cached (fun a => a.mol = tinyMol) (fun _ => True) [(1, 11, 21)] _ none :=
    .stop (reach_runs .cached (fun a => a.mol = tinyMol) _ h0 ⟨tinyMol, 2, false⟩ rfl 5) trivial
  exact ⟨_, reach_runs .cached (fun a => a.mol = tinyMol) _ h1 ⟨tinyMol, 3, false⟩ rfl 2⟩

end GPSKet.Integrals
