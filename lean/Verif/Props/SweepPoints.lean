import Verif.Props.Numerical
import Verif.Props.NumericalExamples
import Verif.Props.Sweep

/-!
# C40: the points that a sweep of a `NumericalSystem` visits
-/

namespace Verif.Props

open Verif Verif.Num Verif.Spec Verif.Num.NS

variable {E O H P X V R Q : Type}

/-- **C40** A sweep over different parameters visits every point of the grid once, in the order of the flat index: there are as many points as the product of the
numbers of values, each gives a value to exactly the swept parameters, and the point with the flat index of a tuple has the values of the tuple. -/
theorem C40_points (st sw : SW E Q) (spec : List SweepSpec) (h : st.ndSweep spec = (sw, .ok ())) (hn : (sweptNames spec).Nodup) :
    ∃ pts, gridPoints sw = .ok pts ∧ pts.length = (sizes spec).prod ∧ (∀ d ∈ pts, ∀ n, n ∈ Dict.keys d ↔ n ∈ sweptNames spec) ∧
      ∀ t, InGrid (sizes spec) t → ∃ (k : ℕ) (d : Dict String PF),
        sw.collapsedIndices (t.map (fun (x : ℕ) => (x : ℤ))) = .ok (k : ℤ) ∧ pts[k]? = some d ∧
        ∀ (j : ℕ) (sp : SweepSpec), spec[j]? = some sp → ∃ i x p, t[j]? = some i ∧
          sw.pc.coll.get? sp.name = some p ∧ p.sweep[i]? = some x ∧ d.get? sp.name = some x := by
  obtain ⟨hnp, hpar, -, c, nc, hc, hnc, hval⟩ := C16_grid_values st sw spec h hn
  have hg : gridPoints sw = .ok ((List.range (sizes spec).prod).map fun i => c.map fun kv => (kv.1, kv.2.getD i PF.nan)) := by
    unfold gridPoints
    simp only [hc, hnp, Int.toNat_natCast]
  refine ⟨_, hg, by simp, fun d hd n => grid_keys h hg hpar d hd n, ?_⟩
  intro t ht
  obtain ⟨f, hb, hf, -⟩ := C15_flat_index_bijection st sw spec h hn
  refine ⟨f ⟨t, ht⟩, c.map fun kv => (kv.1, kv.2.getD (f ⟨t, ht⟩) PF.nan), hf ⟨t, ht⟩, ?_, ?_⟩
  · rw [List.getElem?_map, List.getElem?_range (f ⟨t, ht⟩).2]
    rfl
  · intro j sp hj
    obtain ⟨p, p', pts, g, a, h1, h2, h3, h4, h5, h6, h7, h8, h9, h10⟩ := hval j sp hj
    obtain ⟨i, k, x, hi, hk, hx, hgx, _⟩ := h10 t ht
    have hkf : k = f ⟨t, ht⟩ := by
      have := hf ⟨t, ht⟩
      rw [hk] at this
      simpa using this
    refine ⟨i, x, p', hi, h3, h4 ▸ hx, ?_⟩
    have key : ∀ (c : Dict String (List PF)) (m : ℕ), c.get? sp.name = some g →
        Dict.get? (c.map fun kv => (kv.1, kv.2.getD m PF.nan) : Dict String PF) sp.name = some (g.getD m PF.nan) := by
      intro c m
      induction c with
      | nil => intro h; cases h
      | cons q c ih =>
        intro h
        rw [Dict.get?_cons] at h
        rw [List.map_cons, Dict.get?_cons]
        split_ifs at h ⊢ with hq
        · cases h; rfl
        · exact ih h
    rw [key c _ h6, ← hkf, List.getD_eq_getElem?_getD, hgx]
    rfl

theorem multi_length (eng : Engine E) (ho : HashOrder) (fuel : ℕ) (ph : Phys O H P X V R) (gv : Bool) (entries : List Entry) :
    ∀ (pts : List (Dict String PF)) (st st' : NS E Q O) (res : Dict Method (Res X V R)) (files : List (SW.Pickled (Res X V R))),
    multiLoop eng ho fuel ph gv entries pts st res = (st', files, .ok ()) → files.length = pts.length := by
  intro pts
  induction pts with
  | nil => intro st st' res files h; cases h; rfl
  | cons p pts ih =>
    intro st st' res files h
    unfold multiLoop at h
    split at h
    · cases h
    · rename_i st1 _
      split at h
      · cases h
      · rename_i res1 _
        cases hm : multiLoop eng ho fuel ph gv entries pts st1 res1 with
        | mk a b =>
          obtain ⟨fs, r⟩ := b
          rw [hm] at h
          simp only [Prod.mk.injEq] at h
          obtain ⟨rfl, rfl, rfl⟩ := h
          simp [ih _ _ _ _ hm]

/-- **C40** A sweep that ends normally has written one file for every point of the grid. -/
theorem C40_one_file_per_point (eng : Engine E) (ho : HashOrder) (fuel : ℕ) (ph : Phys O H P X V R) (gv : Bool) (st st' : NS E Q O)
    (files : List (SW.Pickled (Res X V R))) (hn : (sweptNames st.specs).Nodup) (hrun : paramSweep eng ho fuel ph gv st = (st', files, .ok ())) :
    files.length = (sizes st.specs).prod := by
  cases hsw : st.sw.ndSweep st.specs with
  | mk sw r =>
    have hst : (if st.evals.length = 0 then { st with evals := [⟨.getHamiltonian, true, none, {}⟩] } else st) = { st with evals := evaluations st } := by
      unfold evaluations
      by_cases h : st.evals = []
      · simp [h, hamEntry]
      · simp [h]
    cases r with
    | error e => unfold paramSweep at hrun; simp only [hst, hsw] at hrun; cases hrun
    | ok u =>
      obtain ⟨pts, hpts, hlen, -⟩ := C40_points st.sw sw st.specs hsw hn
      cases hpre : ({ st with sw := sw, evals := evaluations st } : NS E Q O).presub eng ho with
      | mk st₁ r =>
        cases r with
        | error e => unfold paramSweep at hrun; simp only [hst, hsw, hpre] at hrun; cases hrun
        | ok u =>
          rw [paramSweep_eq eng ho fuel ph gv st st₁ sw pts hsw hpre hpts] at hrun
          cases hx : evaluate eng ho fuel ph gv (evaluations st) pts st₁ with
          | mk st2 q =>
            obtain ⟨files', r⟩ := q
            rw [hx] at hrun
            cases r with
            | error e => cases hrun
            | ok u =>
              cases hrun
              rw [← hlen]
              unfold evaluate at hx
              split at hx
              · exact (singleLoop_files eng ho fuel ph gv _ pts _ _ _ hx).1
              · exact multi_length eng ho fuel ph gv _ pts _ _ _ _ hx

/-- The hypotheses are met by a sweep of two parameters of the LC circuit, with six points. -/
example : let spec := [⟨"L", .int 1, .int 4, .int 2⟩, ⟨"phie", .int 0, .int 1, .int 3⟩]
    (sweptNames spec).Nodup ∧ (lcNS.1.sw.ndSweep spec).2 = .ok () ∧ (paramSweep Ast.engine .id 10 lcPhys true (lcBefore spec [])).2.2 = .ok () ∧
    (paramSweep Ast.engine .id 10 lcPhys true (lcBefore spec [])).2.1.length = 6 := by
  decide +kernel

end Verif.Props
