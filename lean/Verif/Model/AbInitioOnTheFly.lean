import Verif.Model.AbInitio
import Verif.Model.HubbardOnTheFly

/-! # Model of `local_en_on_the_fly` in `GPSKet/operator/hamiltonian/ab_initio.py:251-957` -/

namespace GPSKet

variable {L : ℕ} {Cache : Type}

/-- Adding to an occupation (`sample[i] - 1`, `.add(spin_update)`, ...).  The code works with `uint8`; a result outside `{0,1,2,3}`,
which no valid move produces, is clamped to it (as JAX clamps an index). -/
def occAdd (v : Fin 4) (d : ℤ) : Fin 4 := ⟨(min 3 (max 0 ((v.val : ℤ) + d))).toNat, by omega⟩

/-- `jnp.nonzero(mask, size=size)` for the mask with the given set of indices (ab_initio.py:275-278): truncated to, or filled with
the index 0 up to, the given size. -/
def nonzeroSize (inds : List (Fin L)) (size : ℕ) : List (Fin L) :=
  inds.take size ++ match (List.finRange L).head? with
    | none => []
    | some z => List.replicate (size - inds.length) z

/-- `get_connected_log_amp` (ab_initio.py:391-415): without fast updates the entries are written in reverse order, one after the
other, so that the first entry of a site wins. -/
def AmpSource.connScan {A : Type} : AmpSource L A Cache → (Fin L → A) → List (Fin L × A) → ℂ
  | .full logpsi, x, upd => logpsi (upd.reverse.foldl (fun y u => Function.update y u.1 u.2) x)
  | .fast m, x, upd => m.fast (m.cacheOf x) upd

/-- Requirement on a fast-update model at the sample `x`: for padded updates the fast evaluation is the amplitude of the updated
configuration. -/
def AmpSource.OkPaddedAt {A : Type} : AmpSource L A Cache → (Fin L → A) → Prop
  | .full _, _ => True
  | .fast m, x => m.CoherentOn fun y upd => y = x ∧ Spec.Padded y upd

/-- The hop of an electron as a list of updates (ab_initio.py:419-420, 505-506, 602-605, 613-616). -/
def hopUpdate (x : Cfg L) (d : ℤ) (i a : Fin L) : List (Fin L × Fin 4) := [(i, occAdd (x i) (-d)), (a, occAdd (x a) d)]

/-- `amp_ratio` of an update (ab_initio.py:426-427 and the like). -/
noncomputable def ampRatio (src : AmpSource L (Fin 4) Cache) (x : Cfg L) (upd : List (Fin L × Fin 4)) : ℂ :=
  Complex.exp (src.connScan x upd - src.logAmp x)

/-- `amp_ratio * parity_multiplicator` of a one-body term (ab_initio.py:417-427, 434, 464, 503-515); `d` is 1 or 2. -/
noncomputable def oneRatio (src : AmpSource L (Fin 4) Cache) (x : Cfg L) (d : ℤ) (count : ℕ → ℤ) (i a : Fin L) : ℂ :=
  ampRatio src x (hopUpdate x d i a) * (parityMultiplicatorHop i a count : ℂ)

/-- `inner_loop` of the terms with two hops of the same spin (ab_initio.py:602-652, 720-770). -/
noncomputable def sameRatio (src : AmpSource L (Fin 4) Cache) (x : Cfg L) (d : ℤ) (count : ℕ → ℤ) (i a j b : Fin L) : ℂ :=
  let m := parityMultiplicatorHop i a count * parityMultiplicatorHop j b count
  let left_lim := min j.val b.val
  let right_lim := max j.val b.val - 1
  let m := if i.val ≤ right_lim ∧ i.val > left_lim then -m else m
  let m := if a.val ≤ right_lim ∧ a.val > left_lim then -m else m
  (m : ℂ) * ampRatio src x (hopUpdate x d i a ++ hopUpdate x d j b)

/-- `get_updated_occ_previous_move` (ab_initio.py:840-849): append the site with its old occupation, then change the first entry of
the site. -/
def prevMove (x : Cfg L) (upd : List (Fin L × Fin 4)) (site : Fin L) (d : ℤ) : List (Fin L × Fin 4) :=
  let full := upd ++ [(site, x site)]
  full.modify (full.findIdx fun u => decide (u.1 = site)) fun u => (u.1, occAdd u.2 d)

/-- `inner_loop` of the terms with a hop of each spin (ab_initio.py:857-896). -/
noncomputable def mixedRatio (src : AmpSource L (Fin 4) Cache) (x : Cfg L) (up_count down_count : ℕ → ℤ) (i a j b : Fin L) : ℂ :=
  ((parityMultiplicatorHop i a up_count * parityMultiplicatorHop j b down_count : ℤ) : ℂ)
    * ampRatio src x (prevMove x (prevMove x (hopUpdate x 1 i a) j (-2)) b 2)

/-- The terms with two hops of the same spin (ab_initio.py:590-706, 708-824); `occ_inds_outer_removed` are the other entries of
`occ`. -/
noncomputable def sameTerms (src : AmpSource L (Fin 4) Cache) (eri : Fin L → Fin L → Fin L → Fin L → ℂ) (x : Cfg L) (d : ℤ)
    (count : ℕ → ℤ) (occ unocc : List (Fin L)) : ℂ :=
  (occ.map fun i => (unocc.map fun a => 1 / 2 * ((occ.filter fun j => decide (j ≠ i)).map fun j =>
    ((unocc.filter fun b => decide (b ≠ a)).map fun b => eri i a j b * sameRatio src x d count i a j b).sum).sum).sum).sum

/-- `local_en_on_the_fly` for one sample (ab_initio.py:266-955) with `return_local_RDMs=False`. -/
noncomputable def abLocalEn (src : AmpSource L (Fin 4) Cache) (n_elecs : ℕ × ℕ) (t : Fin L → Fin L → ℂ)
    (eri : Fin L → Fin L → Fin L → Fin L → ℂ) (x : Cfg L) : ℂ :=
  let up_count := cumsum (isOcc x 1)
  let down_count := cumsum (isOcc x 2)
  let up := nonzeroSize (occInds x 1) n_elecs.1
  let dn := nonzeroSize (occInds x 2) n_elecs.2
  let up' := nonzeroSize (unoccInds x 1) (L - n_elecs.1)
  let dn' := nonzeroSize (unoccInds x 2) (L - n_elecs.2)
  (up.map fun i => t i i).sum + (dn.map fun i => t i i).sum
    + (up.map fun i => (dn.map fun j => eri i i j j).sum).sum
    + 1 / 2 * (up.map fun i => (up.map fun j => eri i i j j).sum).sum
    + 1 / 2 * (up.map fun i => (up'.map fun a => eri i a a i).sum).sum
    + 1 / 2 * (dn.map fun i => (dn.map fun j => eri i i j j).sum).sum
    + 1 / 2 * (dn.map fun i => (dn'.map fun a => eri i a a i).sum).sum
    + (up.map fun i => (up'.map fun a => abOneValue t eri up dn up' i a * oneRatio src x 1 up_count i a).sum).sum
    + (dn.map fun i => (dn'.map fun a => abOneValue t eri dn up dn' i a * oneRatio src x 2 down_count i a).sum).sum
    + sameTerms src eri x 1 up_count up up' + sameTerms src eri x 2 down_count dn dn'
    + (up.map fun i => (up'.map fun a => (dn.map fun j => (dn'.map fun b =>
        eri i a j b * mixedRatio src x up_count down_count i a j b).sum).sum).sum).sum

/-! ## Local reduced density matrices (`return_local_RDMs=True`) -/

/-- An array after a sequence of `.at[index].add(value)`, starting from zeros. -/
noncomputable def rdmAdds {I : Type} [DecidableEq I] (l : List (I × ℂ)) (i : I) : ℂ :=
  (l.map fun u => if u.1 = i then u.2 else 0).sum

/-- The additions to `t_RDM` (ab_initio.py:304-307, 471, 559). -/
noncomputable def tAdds (src : AmpSource L (Fin 4) Cache) (x : Cfg L) (up dn up' dn' : List (Fin L)) : List ((Fin L × Fin L) × ℂ) :=
  let up_count := cumsum (isOcc x 1)
  let down_count := cumsum (isOcc x 2)
  (up.map fun i => ((i, i), 1)) ++ (dn.map fun i => ((i, i), 1))
    ++ (up.flatMap fun i => up'.map fun a => ((i, a), oneRatio src x 1 up_count i a))
    ++ (dn.flatMap fun i => dn'.map fun a => ((i, a), oneRatio src x 2 down_count i a))

/-- The additions to `eri_RDM` of a one-body term (ab_initio.py:434-462, 472-495, 521-582): the entries of the three
contributions, with the axes in the order in which they are added; entries which are zero are left out. -/
noncomputable def oneAdds (r : ℂ) (occ other unocc : List (Fin L)) (i a : Fin L) : List ((Fin L × Fin L × Fin L × Fin L) × ℂ) :=
  (occ.map fun k => ((i, a, k, k), r)) ++ (other.map fun k => ((i, a, k, k), r))
    ++ (unocc.map fun k => ((i, k, k, a), 1 / 2 * r)) ++ (occ.map fun k => ((k, a, i, k), -(1 / 2) * r))

/-- The additions to `eri_RDM` of the terms with two hops of the same spin (ab_initio.py:669-681, 787-799). -/
noncomputable def sameAdds (src : AmpSource L (Fin 4) Cache) (x : Cfg L) (d : ℤ) (count : ℕ → ℤ) (occ unocc : List (Fin L)) :
    List ((Fin L × Fin L × Fin L × Fin L) × ℂ) :=
  occ.flatMap fun i => unocc.flatMap fun a => (occ.filter fun j => decide (j ≠ i)).flatMap fun j =>
    (unocc.filter fun b => decide (b ≠ a)).map fun b => ((i, a, j, b), 1 / 2 * sameRatio src x d count i a j b)

/-- The additions to `eri_RDM` (ab_initio.py:305-372, 913-925 and the above). -/
noncomputable def eriAdds (src : AmpSource L (Fin 4) Cache) (x : Cfg L) (up dn up' dn' : List (Fin L)) :
    List ((Fin L × Fin L × Fin L × Fin L) × ℂ) :=
  let up_count := cumsum (isOcc x 1)
  let down_count := cumsum (isOcc x 2)
  (up.flatMap fun i => dn.map fun j => ((i, i, j, j), 1))
    ++ (up.flatMap fun i => up.map fun j => ((i, i, j, j), 1 / 2))
    ++ (up.flatMap fun i => up'.map fun a => ((i, a, a, i), 1 / 2))
    ++ (dn.flatMap fun i => dn.map fun j => ((i, i, j, j), 1 / 2))
    ++ (dn.flatMap fun i => dn'.map fun a => ((i, a, a, i), 1 / 2))
    ++ (up.flatMap fun i => up'.flatMap fun a => oneAdds (oneRatio src x 1 up_count i a) up dn up' i a)
    ++ (dn.flatMap fun i => dn'.flatMap fun a => oneAdds (oneRatio src x 2 down_count i a) dn up dn' i a)
    ++ sameAdds src x 1 up_count up up' ++ sameAdds src x 2 down_count dn dn'
    ++ (up.flatMap fun i => up'.flatMap fun a => dn.flatMap fun j => dn'.map fun b =>
        ((i, a, j, b), mixedRatio src x up_count down_count i a j b))

/-- `t_RDM` and `eri_RDM` of one sample (ab_initio.py:303-372, 952-953). -/
noncomputable def abLocalRDMs (src : AmpSource L (Fin 4) Cache) (n_elecs : ℕ × ℕ) (x : Cfg L) :
    (Fin L × Fin L → ℂ) × (Fin L × Fin L × Fin L × Fin L → ℂ) :=
  let up := nonzeroSize (occInds x 1) n_elecs.1
  let dn := nonzeroSize (occInds x 2) n_elecs.2
  let up' := nonzeroSize (unoccInds x 1) (L - n_elecs.1)
  let dn' := nonzeroSize (unoccInds x 2) (L - n_elecs.2)
  (rdmAdds (tAdds src x up dn up' dn'), rdmAdds (eriAdds src x up dn up' dn'))

end GPSKet
