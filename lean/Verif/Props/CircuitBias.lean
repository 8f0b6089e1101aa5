import Verif.Lemmas.CircuitCap
import Verif.Props.CircuitLoops

/-!
# C24–C28: flux biases, charge biases, inductive couplings and resonators

A history is any list of calls, some of which may raise; `run {} l` is the state after it.
-/

set_option linter.unusedVariables false

namespace Verif.Props

open Verif Verif.Spec Verif.Circuit

/-- The edge (in one of its directions) is the branch that the history added under the name `c`. -/
def Names (l : List Call) (g : CG) (e : ℕ × ℕ × ℕ) (c : String) : Prop :=
  (∃ b ∈ branches l, IsBranch e b ∧ b.2.2 = c) ∧
  (∀ c', g.cmap.get? e = some c' → c' = c) ∧ ∀ c', g.cmap.get? (e.2.1, e.1, e.2.2) = some c' → c' = c

theorem names_of_carries {l : List Call} (hok : ∀ x ∈ l, x.OK) {e : Edge} {p : Edge × String} (hp : Carries (run {} l).graph e p) :
    Names l (run {} l) e p.2 := by
  have hw := (graphInv_run l).toWF
  have ht := traced_run hok
  refine ⟨⟨strip p, ?_, ?_, rfl⟩, ?_, ?_⟩
  · have := run_graph l {}
    simp only [List.map_nil, List.nil_append] at this
    rw [← this]; exact List.mem_map.2 ⟨p, hp.1, rfl⟩
  · rcases hp.2 with h | h
    · rw [← h]; exact Or.inl ⟨rfl, rfl⟩
    · rw [← h]; exact Or.inr ⟨rfl, rfl⟩
  · intro c' hc'
    obtain ⟨p', hp', rfl⟩ := ht.cmap _ _ hc'
    rw [hp'.unique hw hp]
  · intro c' hc'
    obtain ⟨p', hp', rfl⟩ := ht.cmap e.rev _ hc'
    rw [hp'.unique hw hp.rev]

/-! ### C24 -/

/-- **C24** A failed `addFluxBias` changes nothing. -/
theorem C24_failed_call (g : CG) (c : String) (s m : Option String) (x : Err) (h : (addFluxBias g c s m).2 = .error x) :
    (addFluxBias g c s m).1 = g := addFluxBias_err h

/-- **C24** A successful `addFluxBias`, after any history, adds one entry, for the branch of the component named, which is
conductive and in a listed superconducting loop; the branch had no entry, the suffix was not in use, and a mutual
inductance is accepted only on an inductor. -/
theorem C24_successful_call (l : List Call) (hok : ∀ x ∈ l, x.OK) (c : String) (s m : Option String)
    (h : (addFluxBias (run {} l) c s m).2 = .ok ()) :
    ∃ e s', s = some s' ∧ (run {} l).cmap.get? e = some c ∧ startsWith c 'C' = false ∧
      (∃ q ∈ (run {} l).loops, e ∈ q.2) ∧
      (∀ q ∈ (run {} l).fluxBias, q.1 ≠ e ∧ q.2.suffix ≠ s') ∧
      (∀ m', m = some m' → startsWith m' 'M' = true ∧ startsWith c 'L' = true) ∧
      (addFluxBias (run {} l) c s m).1 = { run {} l with fluxBias := (run {} l).fluxBias ++ [(e, ⟨m, s'⟩)] } := by
  obtain ⟨e, s', h1, h2, h3, h4, h5, h6, h7, h8, h9, h10⟩ := addFluxBias_ok (graphInv_run l).toWF (traced_run hok) h
  refine ⟨e, s', h1, h3, ?_, h5, ?_, ?_, h10⟩
  · cases hs : startsWith c 'C' with
    | false => rfl
    | true => exact absurd ((startsWith_pre _ _).1 hs) h6
  · intro q hq
    exact ⟨fun he => h8 (List.mem_map.2 ⟨q, hq, he⟩),
      fun he => h9 (List.mem_map.2 ⟨q.2, List.mem_map.2 ⟨q, hq, rfl⟩, he⟩)⟩
  · intro m' hm
    have := h7 m' hm
    exact ⟨(startsWith_pre _ _).2 this.1, (startsWith_pre _ _).2 this.2.1⟩

/-- **C24** After any history every flux bias sits on a conductive branch of the circuit, under an edge that occurs once
and a suffix that occurs once; where it has a mutual inductance, the branch is an inductor. -/
theorem C24_history (l : List Call) (hok : ∀ x ∈ l, x.OK) :
    (Dict.keys (run {} l).fluxBias).Nodup ∧ ((run {} l).fluxBias.map fun q => q.2.suffix).Nodup ∧
    ∀ q ∈ (run {} l).fluxBias, ∃ c, Names l (run {} l) q.1 c ∧ startsWith c 'C' = false ∧
      (q.2.comp ≠ none → startsWith c 'L' = true) := by
  have key := run_inv' (P := fun g => (Dict.keys g.fluxBias).Nodup ∧ (g.fluxBias.map fun q => q.2.suffix).Nodup ∧
    ∀ q ∈ g.fluxBias, ∃ p, Carries g.graph q.1 p ∧ pre p.2 ≠ some 'C' ∧ (q.2.comp ≠ none → pre p.2 = some 'L')) hok
    ⟨by simp [Dict.keys], by simp, by intro q hq; cases hq⟩
    (by
      intro g c hc hi ht ⟨h1, h2, h3⟩
      cases c with
      | addBranch o a b c =>
        simp only [step]
        rw [addBranch_frame.2.1]
        refine ⟨h1, h2, fun q hq => ?_⟩
        obtain ⟨p, hp, hr⟩ := h3 q hq
        cases hx : okPrefix c with
        | false => rw [(addBranch_bad hx).1]; exact ⟨p, hp, hr⟩
        | true => rw [addBranch_graph hx]; exact ⟨p, hp.addEdge _ _ _ _, hr⟩
      | coupleBranches a b m => simp only [step]; rw [coupleBranches_frame]; exact ⟨h1, h2, h3⟩
      | coupleResonator n c => simp only [step]; rw [coupleResonator_frame]; exact ⟨h1, h2, h3⟩
      | removeAllResonators => exact ⟨h1, h2, h3⟩
      | addChargeBias n s m => simp only [step]; rw [addChargeBias_frame]; exact ⟨h1, h2, h3⟩
      | addFluxBias c s m =>
        simp only [step]
        cases hr : (addFluxBias g c s m).2 with
        | error x => rw [addFluxBias_err hr]; exact ⟨h1, h2, h3⟩
        | ok u =>
          obtain ⟨e, s', _, _, hce, _, _, hC, hm, hk, hs, heq⟩ := addFluxBias_ok hi.toWF ht hr
          rw [heq]
          refine ⟨?_, ?_, ?_⟩
          · simp only [Dict.keys, List.map_append, List.map_cons, List.map_nil]
            exact List.nodup_append.2 ⟨h1, by simp, by
              intro a ha b hb; rw [List.mem_singleton.1 hb]; rintro rfl; exact hk ha⟩
          · simp only [List.map_append, List.map_cons, List.map_nil]
            refine List.nodup_append.2 ⟨h2, by simp, ?_⟩
            intro a ha b hb
            rw [List.mem_singleton.1 hb]
            rintro rfl
            apply hs
            obtain ⟨q, hq, hqs⟩ := List.mem_map.1 ha
            exact List.mem_map.2 ⟨q.2, List.mem_map.2 ⟨q, hq, rfl⟩, hqs⟩
          · intro q hq
            rcases List.mem_append.1 hq with hq | hq
            · exact h3 q hq
            · rw [List.mem_singleton.1 hq]
              obtain ⟨p, hp, hpc⟩ := ht.cmap e c hce
              refine ⟨p, hp, by rw [hpc]; exact hC, ?_⟩
              intro hne
              cases m with
              | none => exact absurd rfl hne
              | some m' => rw [hpc]; exact (hm m' rfl).2.1)
  obtain ⟨-, -, h1, h2, h3⟩ := key
  refine ⟨h1, h2, fun q hq => ?_⟩
  obtain ⟨p, hp, hC, hL⟩ := h3 q hq
  refine ⟨p.2, names_of_carries hok hp, ?_, fun hne => (startsWith_pre _ _).2 (hL hne)⟩
  cases hs : startsWith p.2 'C' with
  | false => rfl
  | true => exact absurd ((startsWith_pre _ _).1 hs) hC

/-- A ring of one inductor and one junction behind another inductor. -/
def ring : List (ℕ × ℕ × String) := [(0, 1, "L1"), (1, 2, "L2")]

def ringCalls : List Call :=
  (ring.map fun b => Call.addBranch Orc.id b.1 b.2.1 b.2.2) ++ [Call.addBranch Orc.id 1 2 "I1"]

theorem ring_settled : Settled ringCalls (run {} ringCalls) := settled_of_list orcId_ok ring (1, 2, "I1") (by decide +kernel)

theorem ring_ok : ∀ x ∈ ringCalls, x.OK := by
  obtain ⟨_, _, _, _, _, _, _, h, _⟩ := ring_settled; exact h

example : (addFluxBias (run {} ringCalls) "L2" (some "z") (some "M1")).2 = .ok () ∧
    (addFluxBias (run {} ringCalls) "L1" (some "z") none).2 = .error .typeError ∧
    (addFluxBias (run {} ringCalls) "I1" (some "z") (some "M1")).2 = .error .typeError := by decide +kernel

/-- **C24 is false** in one point: a branch can carry two biases, because an added branch may reverse the edge under which
the first bias is stored. -/
theorem C24_biased_twice_false :
    let l := ringCalls ++ [Call.addFluxBias "L2" (some "z") none, Call.addBranch Orc.id 0 2 "L3", Call.addFluxBias "L2" (some "w") none]
    (run {} l).fluxBias = [((1, 2, 0), ⟨none, "z"⟩), ((2, 1, 0), ⟨none, "w"⟩)] ∧
    (run {} l).cmap.get? (1, 2, 0) = some "L2" ∧ (run {} l).cmap.get? (2, 1, 0) = some "L2" := by
  decide +kernel

/-- The oriented circuit lists every branch in one direction. -/
theorem wc_one_direction {h : List Call} {g : CG} (hs : Settled h g) {e : Edge} (h1 : e ∈ g.wc) (h2 : e.rev ∈ g.wc) : e = e.rev := by
  obtain ⟨o, f⟩ := settled_facts hs
  rw [f.synced.wc, f.synced.tree, f.synced.closures] at h1 h2
  exact wc_anti f.ok (conductive_oriented f.inv.toWF).toWF h1 h2

theorem wc_name_inj {h : List Call} {g : CG} (hs : Settled h g) {e e' : Edge} (h1 : e ∈ g.wc) (h2 : e' ∈ g.wc) {c : String}
    (hc : g.cmap.get? e = some c) (hc' : g.cmap.get? e' = some c) : e = e' := by
  obtain ⟨o, f⟩ := settled_facts hs
  have hgh : g = run {} h := by obtain ⟨_, _, _, _, _, _, _, _, _, _, rfl⟩ := hs; rfl
  have hok : ∀ x ∈ h, x.OK := by obtain ⟨_, _, _, _, _, _, _, h, _⟩ := hs; exact h
  have ht : Traced g := by rw [hgh]; exact traced_run hok
  obtain ⟨p, hp, hpc⟩ := ht.cmap _ _ hc
  obtain ⟨p', hp', hpc'⟩ := ht.cmap _ _ hc'
  have hpp : p = p' := List.inj_on_of_nodup_map f.synced.names hp.1 hp'.1 (hpc.trans hpc'.symm)
  subst hpp
  have : e' = e ∨ e' = e.rev := by
    rcases hp.2 with a | a <;> rcases hp'.2 with b | b
    · exact Or.inl (b.symm.trans a)
    · right; rw [← b, a]
    · right; rw [← b, ← a, rev_rev]
    · exact Or.inl (b.symm.trans a)
  rcases this with rfl | rfl
  · rfl
  · exact wc_one_direction hs h1 h2

/-- **C24 (partial)** If all branches are added before the first flux bias, no branch carries two biases.  Missing:
branches added after a bias, for which it is false. -/
theorem C24_no_second_bias_partial (l l' : List Call) (hs : Settled l (run {} l))
    (hl : ∀ x ∈ l, ∀ c s m, x ≠ Call.addFluxBias c s m) (hl' : ∀ x ∈ l', ∀ o a b c, x ≠ Call.addBranch o a b c) :
    ∀ q ∈ (run {} (l ++ l')).fluxBias, ∀ q' ∈ (run {} (l ++ l')).fluxBias, ∀ c,
      (run {} (l ++ l')).cmap.get? q.1 = some c → (run {} (l ++ l')).cmap.get? q'.1 = some c → q = q' := by
  have hok : ∀ x ∈ l, x.OK := by obtain ⟨_, _, _, _, _, _, _, h, _⟩ := hs; exact h
  have h0 : (run {} l).fluxBias = [] := by
    apply run_inv (P := fun g => g.fluxBias = []) rfl
    intro g c hc h
    cases c with
    | addBranch o a b c => simp only [step]; rw [addBranch_frame.2.1]; exact h
    | coupleBranches a b m => simp only [step]; rw [coupleBranches_frame]; exact h
    | coupleResonator n c => simp only [step]; rw [coupleResonator_frame]; exact h
    | removeAllResonators => exact h
    | addChargeBias n s m => simp only [step]; rw [addChargeBias_frame]; exact h
    | addFluxBias c s m => exact absurd rfl (hl _ hc c s m)
  rw [run_append]
  have key : ∀ (l' : List Call), (∀ x ∈ l', ∀ o a b c, x ≠ Call.addBranch o a b c) → ∀ g, SameCircuit (run {} l) g →
      (Dict.keys g.fluxBias).Nodup → (∀ q ∈ g.fluxBias, q.1 ∈ g.wc) →
      SameCircuit (run {} l) (run g l') ∧ (Dict.keys (run g l').fluxBias).Nodup ∧ (∀ q ∈ (run g l').fluxBias, q.1 ∈ (run g l').wc) := by
    intro l'
    induction l' with
    | nil => intro _ g hsame h1 h2; exact ⟨hsame, h1, h2⟩
    | cons x l' ih =>
      intro hl' g hsame h1 h2
      have hx : x.isBranch = false := by
        cases x with
        | addBranch o a b c => exact absurd rfl (hl' _ (by simp) o a b c)
        | _ => rfl
      have hst := step_same (g := g) hx
      apply ih (fun y hy => hl' y (by simp [hy])) (step g x).1 (hsame.trans hst)
      · cases x with
        | addBranch o a b c => cases hx
        | coupleBranches a b m => simp only [step]; rw [coupleBranches_frame]; exact h1
        | coupleResonator n c => simp only [step]; rw [coupleResonator_frame]; exact h1
        | removeAllResonators => exact h1
        | addChargeBias n s m => simp only [step]; rw [addChargeBias_frame]; exact h1
        | addFluxBias c s m =>
          simp only [step]
          cases hr : (addFluxBias g c s m).2 with
          | error x => rw [addFluxBias_err hr]; exact h1
          | ok u =>
            have hw : g.graph.WF := by rw [hsame.graph]; exact (graphInv_run l).toWF
            obtain ⟨e, s', _, _, hce, _, _, hC, hm, hk, hs, heq⟩ := addFluxBias_ok hw ((traced_run hok).of_same hsame) hr
            rw [heq]
            simp only [Dict.keys, List.map_append, List.map_cons, List.map_nil]
            exact List.nodup_append.2 ⟨h1, by simp, by
              intro a ha b hb; rw [List.mem_singleton.1 hb]; rintro rfl; exact hk ha⟩
      · rw [hst.wc]
        cases x with
        | addBranch o a b c => cases hx
        | coupleBranches a b m => simp only [step]; rw [coupleBranches_frame]; exact h2
        | coupleResonator n c => simp only [step]; rw [coupleResonator_frame]; exact h2
        | removeAllResonators => exact h2
        | addChargeBias n s m => simp only [step]; rw [addChargeBias_frame]; exact h2
        | addFluxBias c s m =>
          simp only [step]
          cases hr : (addFluxBias g c s m).2 with
          | error x => rw [addFluxBias_err hr]; exact h2
          | ok u =>
            have hw : g.graph.WF := by rw [hsame.graph]; exact (graphInv_run l).toWF
            obtain ⟨e, s', _, _, hce, hwc, _, hC, hm, hk, hs, heq⟩ := addFluxBias_ok hw ((traced_run hok).of_same hsame) hr
            rw [heq]
            intro q hq
            rcases List.mem_append.1 hq with hq | hq
            · exact h2 q hq
            · rw [List.mem_singleton.1 hq]; exact hwc
  obtain ⟨hsame, hnd, hwc⟩ := key l' hl' (run {} l) ⟨rfl, rfl, rfl, rfl, rfl, rfl, rfl, rfl, rfl⟩
    (by rw [h0]; simp [Dict.keys]) (by rw [h0]; intro q hq; cases hq)
  intro q hq q' hq' c hc hc'
  have e1 := hwc q hq
  have e2 := hwc q' hq'
  rw [hsame.wc] at e1 e2
  rw [hsame.cmap] at hc hc'
  have := wc_name_inj hs e1 e2 hc hc'
  exact List.inj_on_of_nodup_map hnd hq hq' this

example : ∀ x ∈ ringCalls, ∀ c s m, x ≠ Call.addFluxBias c s m := by
  intro x hx c s m he
  subst he
  simp [ringCalls, ring] at hx

/-! ### C25 -/

/-- **C25 is false**: the bias is stored under the edge `(1, 2, 0)`; after one more inductor has been added the oriented
circuit contains the branch only as `(2, 1, 0)`. -/
theorem C25_bias_detached_false :
    let g := run {} (ringCalls ++ [Call.addFluxBias "L2" (some "z") none])
    let g' := run {} (ringCalls ++ [Call.addFluxBias "L2" (some "z") none, Call.addBranch Orc.id 0 2 "L3"])
    Dict.keys g.fluxBias = [(1, 2, 0)] ∧ (1, 2, 0) ∈ g.wc ∧
    Dict.keys g'.fluxBias = [(1, 2, 0)] ∧ (1, 2, 0) ∉ g'.wc ∧ (2, 1, 0) ∈ g'.wc := by
  decide +kernel

/-- **C25** What always remains: `addBranch` does not touch the stored biases and couplings (even when it raises), and the
stored edges still carry the same components. -/
theorem C25_entries_kept (l : List Call) (hok : ∀ x ∈ l, x.OK) (o : Orc) (ho : o.OK) (a b : ℕ) (c : String) :
    let g := run {} l
    let g' := (addBranch o g a b c).1
    g'.fluxBias = g.fluxBias ∧ g'.coupled = g.coupled ∧ g'.chargeBias = g.chargeBias ∧
    ∀ e n n', g.cmap.get? e = some n → g'.cmap.get? e = some n' → n' = n := by
  intro g g'
  refine ⟨addBranch_frame.2.1, addBranch_frame.2.2.1, addBranch_frame.1, ?_⟩
  intro e n n' h1 h2
  have ht := traced_run hok
  have ht' : Traced g' := traced_addBranch ho (graphInv_run l) ht a b c
  obtain ⟨p, hp, rfl⟩ := ht.cmap _ _ h1
  obtain ⟨p', hp', rfl⟩ := ht'.cmap _ _ h2
  have hi' : GraphInv g'.graph := graphInv_step (graphInv_run l) (Call.addBranch o a b c)
  have hpg : Carries g'.graph e p := by
    cases hx : okPrefix c with
    | false =>
      have : g' = g := (addBranch_bad hx).1
      rw [this]; exact hp
    | true =>
      have : g'.graph = _ := addBranch_graph hx
      rw [this]; exact hp.addEdge _ _ _ _
  rw [hp'.unique hi'.toWF hpg]

/-- **C25 (partial)** Adding a capacitor (when the sets of nodes come out in order) leaves the oriented superconducting
circuit as it was, so all biases and couplings stay attached.  Missing: conductive branches, for which it is false. -/
theorem C25_capacitor_partial {h : List Call} {g : CG} (hs : Settled h g) (hord : ∀ x ∈ h, KeepsOrder x) (o : Orc) (ho : o.OK)
    (ho' : ∀ l, o.nodeOrd l = l) (a b : ℕ) (c : String) (hc : startsWith c 'C' = true)
    (hok : (addBranch o g a b c).2 = .ok ()) (e : ℕ × ℕ × ℕ) :
    e ∈ (addBranch o g a b c).1.wc ↔ e ∈ g.wc := by
  obtain ⟨o', f⟩ := settled_facts hs
  have hord' : ∀ l, o'.nodeOrd l = l := by
    obtain ⟨a, b, c, hm⟩ := f.last
    exact hord _ hm o' a b c rfl
  obtain ⟨hx, hsy⟩ := addBranch_synced ho f.inv hok
  have hgr := addBranch_graph (o := o) (g := g) (a := a) (b := b) hx
  rw [hsy.wc, hsy.tree, hsy.closures, f.synced.wc, f.synced.tree, f.synced.closures, hgr]
  obtain ⟨hes, ext, hn, hext⟩ := conductive_cap f.inv a b ((startsWith_pre _ _).1 hc)
  exact wc_isolated f.ok ho hord' ho' (conductive_oriented f.inv.toWF).toWF
    (conductive_oriented (f.inv.addEdge a b c).toWF).toWF hes hn hext e

example : (addBranch Orc.id (run {} ringCalls) 0 2 "C1").2 = .ok () ∧ (run {} ringCalls).wc.length = 3 := by decide +kernel

/-! ### C26 -/

/-- **C26** A failed `addChargeBias` changes nothing. -/
theorem C26_failed_call (g : CG) (n : ℕ) (s m : Option String) (x : Err) (h : (addChargeBias g n s m).2 = .error x) :
    (addChargeBias g n s m).1 = g := addChargeBias_err h

/-- **C26** After any history each node carries at most one charge bias, each biased node is a node of the circuit, no
suffix is used twice, and the coupling component, if any, is a capacitor. -/
theorem C26_history (l : List Call) (hok : ∀ x ∈ l, x.OK) :
    (Dict.keys (run {} l).chargeBias).Nodup ∧ ((run {} l).chargeBias.map fun q => q.2.suffix).Nodup ∧
    ∀ q ∈ (run {} l).chargeBias, q.1 ∈ nodesOf (branches l) ∧ ∀ m, q.2.comp = some m → startsWith m 'C' = true := by
  have key := run_inv' (P := fun g => (Dict.keys g.chargeBias).Nodup ∧ (g.chargeBias.map fun q => q.2.suffix).Nodup ∧
    ∀ q ∈ g.chargeBias, q.1 ∈ g.graph.nodes ∧ ∀ m, q.2.comp = some m → pre m = some 'C') hok
    ⟨by simp [Dict.keys], by simp, by intro q hq; cases hq⟩
    (by
      intro g c hc hi ht ⟨h1, h2, h3⟩
      cases c with
      | addBranch o a b c =>
        simp only [step]
        rw [addBranch_frame.1]
        refine ⟨h1, h2, fun q hq => ?_⟩
        obtain ⟨hp, hr⟩ := h3 q hq
        cases hx : okPrefix c with
        | false => rw [(addBranch_bad hx).1]; exact ⟨hp, hr⟩
        | true =>
          rw [addBranch_graph hx]
          obtain ⟨ext, he, _⟩ := addEdge_nodes_append g.graph a b (g.graph.newKey a b) c
          rw [he]
          exact ⟨List.mem_append_left _ hp, hr⟩
      | coupleBranches a b m => simp only [step]; rw [coupleBranches_frame]; exact ⟨h1, h2, h3⟩
      | coupleResonator n c => simp only [step]; rw [coupleResonator_frame]; exact ⟨h1, h2, h3⟩
      | removeAllResonators => exact ⟨h1, h2, h3⟩
      | addFluxBias c s m => simp only [step]; rw [addFluxBias_frame]; exact ⟨h1, h2, h3⟩
      | addChargeBias n s m =>
        simp only [step]
        cases hr : (addChargeBias g n s m).2 with
        | error x => rw [addChargeBias_err hr]; exact ⟨h1, h2, h3⟩
        | ok u =>
          obtain ⟨s', _, _, hn, hm, hk, hs, heq⟩ := addChargeBias_ok hr
          rw [heq]
          refine ⟨?_, ?_, ?_⟩
          · simp only [Dict.keys, List.map_append, List.map_cons, List.map_nil]
            exact List.nodup_append.2 ⟨h1, by simp, by
              intro a ha b hb; rw [List.mem_singleton.1 hb]; rintro rfl; exact hk ha⟩
          · simp only [List.map_append, List.map_cons, List.map_nil]
            refine List.nodup_append.2 ⟨h2, by simp, ?_⟩
            intro a ha b hb
            rw [List.mem_singleton.1 hb]
            rintro rfl
            apply hs
            obtain ⟨q, hq, hqs⟩ := List.mem_map.1 ha
            exact List.mem_map.2 ⟨q.2, List.mem_map.2 ⟨q, hq, rfl⟩, hqs⟩
          · intro q hq
            rcases List.mem_append.1 hq with hq | hq
            · exact h3 q hq
            · rw [List.mem_singleton.1 hq]
              exact ⟨hn, fun m' hm' => (hm m' hm').1⟩)
  obtain ⟨hi, -, h1, h2, h3⟩ := key
  refine ⟨h1, h2, fun q hq => ?_⟩
  obtain ⟨hn, hm⟩ := h3 q hq
  refine ⟨?_, fun m hm' => (startsWith_pre _ _).2 (hm m hm')⟩
  rw [nodes_run, mem_uniq] at hn
  exact List.mem_toFinset.2 hn

/-- **C26** A successful `addChargeBias`, after any history whose last `addBranch` succeeded, adds one entry for a node without one, and the coupling
capacitance is not the name of a branch of the circuit. -/
theorem C26_successful_call (l : List Call) (hs : Settled l (run {} l)) (n : ℕ) (s m : Option String)
    (h : (addChargeBias (run {} l) n s m).2 = .ok ()) :
    ∃ s', s = some s' ∧ n ∈ nodesOf (branches l) ∧ (∀ q ∈ (run {} l).chargeBias, q.1 ≠ n ∧ q.2.suffix ≠ s') ∧
      (∀ m', m = some m' → startsWith m' 'C' = true ∧ ∀ b ∈ branches l, b.2.2 ≠ m') ∧
      (addChargeBias (run {} l) n s m).1 = { run {} l with chargeBias := (run {} l).chargeBias ++ [(n, ⟨m, s'⟩)] } := by
  obtain ⟨s', h1, h2, h3, h4, h5, h6, h7⟩ := addChargeBias_ok h
  refine ⟨s', h1, ?_, ?_, ?_, h7⟩
  · rw [nodes_run, mem_uniq] at h3
    exact List.mem_toFinset.2 h3
  · intro q hq
    exact ⟨fun he => h5 (List.mem_map.2 ⟨q, hq, he⟩),
      fun he => h6 (List.mem_map.2 ⟨q.2, List.mem_map.2 ⟨q, hq, rfl⟩, he⟩)⟩
  · intro m' hm
    refine ⟨(startsWith_pre _ _).2 (h4 m' hm).1, fun b hb he => (h4 m' hm).2 ?_⟩
    exact (values_iff hs m').2 (List.mem_map.2 ⟨b, hb, he⟩)

example : (addChargeBias (run {} ringCalls) 1 (some "g") (some "Cg")).2 = .ok () ∧
    (addChargeBias (run {} ringCalls) 7 (some "g") (some "Cg")).2 = .error .valueError := by decide +kernel

/-- **C26 is false** in one point: the same coupling capacitance name can be used for two nodes, and again for a branch
added later. -/
theorem C26_capacitance_reused_false :
    let l := ringCalls ++ [Call.addChargeBias 1 (some "a") (some "Cg"), Call.addChargeBias 2 (some "b") (some "Cg"),
      Call.addBranch Orc.id 0 2 "Cg"]
    (run {} l).chargeBias = [(1, ⟨some "Cg", "a"⟩), (2, ⟨some "Cg", "b"⟩)] ∧ (run {} l).cmap.get? (0, 2, 0) = some "Cg" := by
  decide +kernel

/-! ### C27 -/

/-- **C27** A failed `coupleBranchesInductively` changes nothing. -/
theorem C27_failed_call (g : CG) (a b m : String) (x : Err) (h : (coupleBranches g a b m).2 = .error x) :
    (coupleBranches g a b m).1 = g := coupleBranches_err h

/-- **C27** A successful call, after any history, adds one coupling between the edges of the two inductors named, which
are different edges if the names are different; the mutual inductance and the pair of edges were not in use. -/
theorem C27_successful_call (l : List Call) (hok : ∀ x ∈ l, x.OK) (a b m : String) (h : (coupleBranches (run {} l) a b m).2 = .ok ()) :
    ∃ e1 e2, (run {} l).cmap.get? e1 = some a ∧ (run {} l).cmap.get? e2 = some b ∧
      startsWith a 'L' = true ∧ startsWith b 'L' = true ∧ startsWith m 'M' = true ∧ (a ≠ b → e1 ≠ e2) ∧
      (∀ q ∈ (run {} l).coupled, q.1 ≠ m ∧ q.2 ≠ (e1, e2) ∧ q.2 ≠ (e2, e1)) ∧
      (coupleBranches (run {} l) a b m).1 = { run {} l with coupled := (run {} l).coupled ++ [(m, (e1, e2))] } := by
  obtain ⟨e1, e2, h1, h2, h3, h4, h5, h6, h7, h8, h9, h10⟩ := coupleBranches_ok h
  refine ⟨e1, e2, h3, h4, (startsWith_pre _ _).2 h5, (startsWith_pre _ _).2 h6, (startsWith_pre _ _).2 h1, ?_, ?_, h10⟩
  · rintro hab rfl
    rw [h3] at h4; injection h4 with h4; exact hab h4
  · intro q hq
    refine ⟨fun he => h2 (List.mem_map.2 ⟨q, hq, he⟩), fun he => ?_, fun he => ?_⟩
    · exact h9 q hq (Or.inl ⟨congrArg Prod.fst he, congrArg Prod.snd he⟩)
    · exact h9 q hq (Or.inr ⟨congrArg Prod.fst he, congrArg Prod.snd he⟩)

/-- **C27** After any history each recorded coupling joins inductors of the circuit, and no mutual inductance occurs
twice among the couplings. -/
theorem C27_history (l : List Call) (hok : ∀ x ∈ l, x.OK) :
    (Dict.keys (run {} l).coupled).Nodup ∧
    ∀ q ∈ (run {} l).coupled, ∃ c1 c2, Names l (run {} l) q.2.1 c1 ∧ Names l (run {} l) q.2.2 c2 ∧
      startsWith c1 'L' = true ∧ startsWith c2 'L' = true ∧ startsWith q.1 'M' = true := by
  have key := run_inv' (P := fun g => (Dict.keys g.coupled).Nodup ∧
    ∀ q ∈ g.coupled, ∃ p1 p2, Carries g.graph q.2.1 p1 ∧ Carries g.graph q.2.2 p2 ∧ pre p1.2 = some 'L' ∧ pre p2.2 = some 'L' ∧
      pre q.1 = some 'M') hok
    ⟨by simp [Dict.keys], by intro q hq; cases hq⟩
    (by
      intro g c hc hi ht ⟨h1, h3⟩
      cases c with
      | addBranch o a b c =>
        simp only [step]
        rw [addBranch_frame.2.2.1]
        refine ⟨h1, fun q hq => ?_⟩
        obtain ⟨p1, p2, hp1, hp2, hr⟩ := h3 q hq
        cases hx : okPrefix c with
        | false => rw [(addBranch_bad hx).1]; exact ⟨p1, p2, hp1, hp2, hr⟩
        | true => rw [addBranch_graph hx]; exact ⟨p1, p2, hp1.addEdge _ _ _ _, hp2.addEdge _ _ _ _, hr⟩
      | addFluxBias c s m => simp only [step]; rw [addFluxBias_frame]; exact ⟨h1, h3⟩
      | coupleResonator n c => simp only [step]; rw [coupleResonator_frame]; exact ⟨h1, h3⟩
      | removeAllResonators => exact ⟨h1, h3⟩
      | addChargeBias n s m => simp only [step]; rw [addChargeBias_frame]; exact ⟨h1, h3⟩
      | coupleBranches a b m =>
        simp only [step]
        cases hr : (coupleBranches g a b m).2 with
        | error x => rw [coupleBranches_err hr]; exact ⟨h1, h3⟩
        | ok u =>
          obtain ⟨e1, e2, k1, k2, k3, k4, k5, k6, k7, k8, k9, k10⟩ := coupleBranches_ok hr
          rw [k10]
          refine ⟨?_, ?_⟩
          · simp only [Dict.keys, List.map_append, List.map_cons, List.map_nil]
            exact List.nodup_append.2 ⟨h1, by simp, by
              intro a ha b hb; rw [List.mem_singleton.1 hb]; rintro rfl; exact k2 ha⟩
          · intro q hq
            rcases List.mem_append.1 hq with hq | hq
            · exact h3 q hq
            · rw [List.mem_singleton.1 hq]
              obtain ⟨p1, hp1, hpc1⟩ := ht.cmap _ _ k3
              obtain ⟨p2, hp2, hpc2⟩ := ht.cmap _ _ k4
              exact ⟨p1, p2, hp1, hp2, by rw [hpc1]; exact k5, by rw [hpc2]; exact k6, k1⟩)
  obtain ⟨-, -, h1, h3⟩ := key
  refine ⟨h1, fun q hq => ?_⟩
  obtain ⟨p1, p2, hp1, hp2, hL1, hL2, hM⟩ := h3 q hq
  exact ⟨p1.2, p2.2, names_of_carries hok hp1, names_of_carries hok hp2, (startsWith_pre _ _).2 hL1, (startsWith_pre _ _).2 hL2,
    (startsWith_pre _ _).2 hM⟩

example : (coupleBranches (run {} ringCalls) "L1" "L2" "M1").2 = .ok () ∧
    (coupleBranches (run {} ringCalls) "L1" "I1" "M1").2 = .error .typeError := by decide +kernel

/-- **C27 is false**: an inductor can be coupled to itself. -/
theorem C27_self_coupling_false :
    (coupleBranches (run {} ringCalls) "L1" "L1" "M1").2 = .ok () ∧
    (coupleBranches (run {} ringCalls) "L1" "L1" "M1").1.coupled = [("M1", ((0, 1, 0), (0, 1, 0)))] := by decide +kernel

/-- **C27 is false**: after an added branch has reversed an edge, the same pair of inductors can be coupled again. -/
theorem C27_coupled_twice_false :
    let l := ringCalls ++ [Call.coupleBranches "L1" "L2" "M1", Call.addBranch Orc.id 0 2 "L3", Call.coupleBranches "L1" "L2" "M2"]
    (run {} l).coupled = [("M1", ((0, 1, 0), (1, 2, 0))), ("M2", ((0, 1, 0), (2, 1, 0)))] := by decide +kernel

/-- **C27 is false**: a mutual inductance that is in use for a coupling can be used for a flux bias (and conversely). -/
theorem C27_mutual_reused_false :
    let l := ringCalls ++ [Call.coupleBranches "L1" "L2" "M1", Call.addFluxBias "L2" (some "z") (some "M1")]
    Dict.keys (run {} l).coupled = ["M1"] ∧ (run {} l).fluxBias = [((1, 2, 0), ⟨some "M1", "z"⟩)] := by decide +kernel

/-- **C27 (partial)** If all branches are added before the first coupling, no pair of inductors is coupled twice, in
either order.  Missing: branches added after a coupling, for which it is false. -/
theorem C27_no_pair_twice_partial (l l' : List Call) (hs : Settled l (run {} l))
    (hl : ∀ x ∈ l, ∀ a b m, x ≠ Call.coupleBranches a b m) (hl' : ∀ x ∈ l', ∀ o a b c, x ≠ Call.addBranch o a b c) :
    ∀ q ∈ (run {} (l ++ l')).coupled, ∀ q' ∈ (run {} (l ++ l')).coupled, ∀ a b a' b',
      (run {} (l ++ l')).cmap.get? q.2.1 = some a → (run {} (l ++ l')).cmap.get? q.2.2 = some b →
      (run {} (l ++ l')).cmap.get? q'.2.1 = some a' → (run {} (l ++ l')).cmap.get? q'.2.2 = some b' →
      (a = a' ∧ b = b' ∨ a = b' ∧ b = a') → q = q' := by
  have hok : ∀ x ∈ l, x.OK := by obtain ⟨_, _, _, _, _, _, _, h, _⟩ := hs; exact h
  have h0 : (run {} l).coupled = [] := by
    apply run_inv (P := fun g => g.coupled = []) rfl
    intro g c hc h
    cases c with
    | addBranch o a b c => simp only [step]; rw [addBranch_frame.2.2.1]; exact h
    | addFluxBias a b m => simp only [step]; rw [addFluxBias_frame]; exact h
    | coupleResonator n c => simp only [step]; rw [coupleResonator_frame]; exact h
    | removeAllResonators => exact h
    | addChargeBias n s m => simp only [step]; rw [addChargeBias_frame]; exact h
    | coupleBranches c s m => exact absurd rfl (hl _ hc c s m)
  rw [run_append]
  let P : CG → Prop := fun g => (∀ q ∈ g.coupled, q.2.1 ∈ g.wc ∧ q.2.2 ∈ g.wc) ∧
    (g.coupled.Pairwise fun q q' => ¬ ((q.2.1 = q'.2.1 ∧ q.2.2 = q'.2.2) ∨ (q.2.1 = q'.2.2 ∧ q.2.2 = q'.2.1)))
  have key : ∀ (l' : List Call), (∀ x ∈ l', ∀ o a b c, x ≠ Call.addBranch o a b c) → ∀ g, SameCircuit (run {} l) g →
      P g → SameCircuit (run {} l) (run g l') ∧ P (run g l') := by
    intro l'
    induction l' with
    | nil => intro _ g hsame h1; exact ⟨hsame, h1⟩
    | cons x l' ih =>
      intro hl' g hsame h1
      have hx : x.isBranch = false := by
        cases x with
        | addBranch o a b c => exact absurd rfl (hl' _ (by simp) o a b c)
        | _ => rfl
      have hst := step_same (g := g) hx
      apply ih (fun y hy => hl' y (by simp [hy])) (step g x).1 (hsame.trans hst)
      cases x with
      | addBranch o a b c => cases hx
      | addFluxBias a b m => simp only [step]; rw [addFluxBias_frame]; exact h1
      | coupleResonator n c => simp only [step]; rw [coupleResonator_frame]; exact h1
      | removeAllResonators => exact h1
      | addChargeBias n s m => simp only [step]; rw [addChargeBias_frame]; exact h1
      | coupleBranches a b m =>
        simp only [step]
        cases hr : (coupleBranches g a b m).2 with
        | error x => rw [coupleBranches_err hr]; exact h1
        | ok u =>
          obtain ⟨e1, e2, k1, k2, k3, k4, k5, k6, k7, k8, k9, k10⟩ := coupleBranches_ok hr
          rw [k10]
          refine ⟨?_, ?_⟩
          · intro q hq
            rcases List.mem_append.1 hq with hq | hq
            · exact h1.1 q hq
            · rw [List.mem_singleton.1 hq]; exact ⟨k7, k8⟩
          · refine List.pairwise_append.2 ⟨h1.2, by simp, ?_⟩
            intro q hq q' hq'
            rw [List.mem_singleton.1 hq']
            exact k9 q hq
  obtain ⟨hsame, hwc, hpw⟩ := key l' hl' (run {} l) ⟨rfl, rfl, rfl, rfl, rfl, rfl, rfl, rfl, rfl⟩
    ⟨(by rw [h0]; intro q hq; cases hq), (by rw [h0]; exact List.Pairwise.nil)⟩
  intro q hq q' hq' a b a' b' ha hb ha' hb' hor
  by_contra hne
  have w1 := hwc q hq
  have w2 := hwc q' hq'
  rw [hsame.wc] at w1 w2
  rw [hsame.cmap] at ha hb ha' hb'
  have hsym : ∀ q q' : String × Edge × Edge, ¬ ((q.2.1 = q'.2.1 ∧ q.2.2 = q'.2.2) ∨ (q.2.1 = q'.2.2 ∧ q.2.2 = q'.2.1)) →
      ¬ ((q'.2.1 = q.2.1 ∧ q'.2.2 = q.2.2) ∨ (q'.2.1 = q.2.2 ∧ q'.2.2 = q.2.1)) := by
    rintro q q' h (⟨h1, h2⟩ | ⟨h1, h2⟩)
    · exact h (Or.inl ⟨h1.symm, h2.symm⟩)
    · exact h (Or.inr ⟨h2.symm, h1.symm⟩)
  haveI : Std.Symm (fun q q' : String × Edge × Edge =>
    ¬ ((q.2.1 = q'.2.1 ∧ q.2.2 = q'.2.2) ∨ (q.2.1 = q'.2.2 ∧ q.2.2 = q'.2.1))) := ⟨hsym⟩
  apply hpw.forall hq hq' hne
  rcases hor with ⟨rfl, rfl⟩ | ⟨rfl, rfl⟩
  · exact Or.inl ⟨wc_name_inj hs w1.1 w2.1 ha ha', wc_name_inj hs w1.2 w2.2 hb hb'⟩
  · exact Or.inr ⟨wc_name_inj hs w1.1 w2.2 ha hb', wc_name_inj hs w1.2 w2.1 hb ha'⟩

/-! ### C28 -/

/-- **C28** A failed `coupleResonatorCapacitively` changes nothing. -/
theorem C28_failed_call (g : CG) (n : ℕ) (c : String) (x : Err) (h : (coupleResonator g n c).2 = .error x) :
    (coupleResonator g n c).1 = g := coupleResonator_err h

theorem updateCouplings_get? (d : Dict Node (Option Resonator)) (a b n : Node) (r : Option Resonator)
    (h : (updateCouplings d a b).get? n = some r) : d.get? n = some r ∨ (r = none ∧ (n = a ∨ n = b)) := by
  unfold updateCouplings at h
  have key : ∀ (d : Dict Node (Option Resonator)) (a : Node), (if Dict.has d a then d else Dict.set d a none).get? n = some r →
      d.get? n = some r ∨ (r = none ∧ n = a) := by
    intro d a h
    split_ifs at h
    · exact Or.inl h
    · rw [Dict.get?_set] at h
      split_ifs at h with h1
      · injection h with h; exact Or.inr ⟨h.symm, h1.symm⟩
      · exact Or.inl h
  rcases key _ _ h with h1 | h1
  · rcases key _ _ h1 with h2 | h2
    · exact Or.inl h2
    · exact Or.inr ⟨h2.1, Or.inl h2.2⟩
  · exact Or.inr ⟨h1.1, Or.inr h1.2⟩

theorem foldl_set_none (ns : List Node) : ∀ (d : Dict Node (Option Resonator)) (n : Node) (r : Option Resonator),
    Dict.get? (ns.foldl (fun d n => Dict.set d n none) d) n = some r → (n ∈ ns ∧ r = none) ∨ (n ∉ ns ∧ Dict.get? d n = some r) := by
  induction ns with
  | nil => intro d n r h; exact Or.inr ⟨by simp, h⟩
  | cons a ns ih =>
    intro d n r h
    rcases ih _ n r h with ⟨h1, h2⟩ | ⟨h1, h2⟩
    · exact Or.inl ⟨by simp [h1], h2⟩
    · rw [Dict.get?_set] at h2
      split_ifs at h2 with h3
      · injection h2 with h2; exact Or.inl ⟨by simp [h3], h2.symm⟩
      · exact Or.inr ⟨by simp [h1, Ne.symm h3], h2⟩

/-- The resonator entries are for nodes of the graph. -/
theorem resonator_nodes (l : List Call) (hok : ∀ x ∈ l, x.OK) : ∀ n r, (run {} l).resonators.get? n = some r →
    n ∈ (run {} l).graph.nodes ∧ ∀ x, r = some x → n ≠ 0 ∧ ∃ c, x = mkResonator n c ∧ pre c = some 'C' := by
  refine (run_inv' (P := fun g => ∀ n r, g.resonators.get? n = some r →
    n ∈ g.graph.nodes ∧ ∀ x, r = some x → n ≠ 0 ∧ ∃ c, x = mkResonator n c ∧ pre c = some 'C') hok
    (by intro n r h; cases h) ?_).2.2
  intro g c hc hi ht h3
  cases c with
  | addBranch o a b c =>
    simp only [step]
    intro n r hr
    cases hx : okPrefix c with
    | false => rw [(addBranch_bad hx).1] at hr ⊢; exact h3 n r hr
    | true =>
      have hmem : ∀ m, m ∈ g.graph.nodes ∨ m = a ∨ m = b → m ∈ (addBranch o g a b c).1.graph.nodes := by
        intro m hm
        rw [addBranch_graph hx]
        simp only [MGraph.addEdge]
        have h1 : ∀ (G : MGraph) (x y : Node), y ∈ G.nodes ∨ y = x → y ∈ (G.addNode x).nodes := by
          intro G x y hy
          unfold MGraph.addNode
          split_ifs with h
          · rcases hy with hy | rfl
            · exact hy
            · exact h
          · simpa using hy
        rcases hm with hm | rfl | rfl
        · exact h1 _ _ _ (Or.inl (h1 _ _ _ (Or.inl hm)))
        · exact h1 _ _ _ (Or.inl (h1 _ _ _ (Or.inr rfl)))
        · exact h1 _ _ _ (Or.inr rfl)
      rcases (addBranch_frame (o := o) (g := g) (a := a) (b := b) (c := c)).2.2.2 with h1 | ⟨_, h1⟩
      · rw [h1] at hr
        exact ⟨hmem n (Or.inl (h3 n r hr).1), (h3 n r hr).2⟩
      · rw [h1] at hr
        rcases updateCouplings_get? _ _ _ _ _ hr with h2 | ⟨rfl, h2⟩
        · exact ⟨hmem n (Or.inl (h3 n r h2).1), (h3 n r h2).2⟩
        · exact ⟨hmem n (Or.inr h2), by rintro _ ⟨⟩⟩
  | addFluxBias c s m => simp only [step]; rw [addFluxBias_frame]; exact h3
  | coupleBranches a b m => simp only [step]; rw [coupleBranches_frame]; exact h3
  | addChargeBias n s m => simp only [step]; rw [addChargeBias_frame]; exact h3
  | removeAllResonators =>
    simp only [step, removeAllResonators]
    intro n r hr
    rcases foldl_set_none _ _ _ _ hr with ⟨h1, rfl⟩ | ⟨_, h1⟩
    · exact ⟨h1, by rintro _ ⟨⟩⟩
    · exact h3 n r h1
  | coupleResonator n c =>
    simp only [step]
    cases hr : (coupleResonator g n c).2 with
    | error x => rw [coupleResonator_err hr]; exact h3
    | ok u =>
      obtain ⟨k1, k2, k3, k4, k5, k6⟩ := coupleResonator_ok hr
      rw [k6]
      intro n' r hr'
      simp only at hr' ⊢
      rw [Dict.get?_set] at hr'
      split_ifs at hr' with h1
      · subst h1
        injection hr' with hr'
        subst hr'
        refine ⟨k1, ?_⟩
        rintro x ⟨⟩
        exact ⟨k2, c, rfl, k4⟩
      · exact h3 n' r hr'

/-- **C28** After any history, only nodes of the circuit other than ground have resonators, at most one each, coupled by a
capacitor and with frequency, impedance and coupling symbols named after the node. -/
theorem C28_history (l : List Call) (hok : ∀ x ∈ l, x.OK) :
    ∀ n r, (run {} l).resonators.get? n = some (some r) → n ∈ nodesOf (branches l) ∧ n ≠ 0 ∧ startsWith r.coupling 'C' = true ∧
      r.fr = "f" ++ toString n ++ "r" ∧ r.zr = "Z" ++ toString n ++ "r" ∧ r.gc = "g" ++ toString n ++ "r" ∧
      r.frl = "f" ++ toString n ++ "rl" ∧ r.zrl = "Z" ++ toString n ++ "rl" := by
  intro n r h
  obtain ⟨h1, h2⟩ := resonator_nodes l hok n _ h
  obtain ⟨h3, c, rfl, h4⟩ := h2 r rfl
  refine ⟨?_, h3, (startsWith_pre _ _).2 h4, rfl, rfl, rfl, rfl, rfl⟩
  rw [nodes_run, mem_uniq] at h1
  exact List.mem_toFinset.2 h1

/-- **C28** A successful call gives a resonator to a node that had none; the other nodes keep theirs, nothing else
changes, and the coupling capacitance is not the name of a branch. -/
theorem C28_successful_call (l : List Call) (hs : Settled l (run {} l)) (n : ℕ) (c : String)
    (h : (coupleResonator (run {} l) n c).2 = .ok ()) :
    (run {} l).resonators.get? n = some none ∧ (∀ b ∈ branches l, b.2.2 ≠ c) ∧
    (∃ r, (coupleResonator (run {} l) n c).1.resonators.get? n = some (some r) ∧ r.coupling = c) ∧
    (∀ n', n' ≠ n → (coupleResonator (run {} l) n c).1.resonators.get? n' = (run {} l).resonators.get? n') ∧
    { (coupleResonator (run {} l) n c).1 with resonators := (run {} l).resonators } = run {} l := by
  obtain ⟨k1, k2, k3, k4, k5, k6⟩ := coupleResonator_ok h
  refine ⟨k3, fun b hb he => k5 ((values_iff hs c).2 (List.mem_map.2 ⟨b, hb, he⟩)), ?_, ?_, ?_⟩
  · rw [k6]; exact ⟨_, Dict.get?_set_self _ _ _, rfl⟩
  · intro n' hne; rw [k6]; exact Dict.get?_set_ne _ _ (Ne.symm hne)
  · rw [k6]

example : (coupleResonator (run {} ringCalls) 1 "Cr").2 = .ok () ∧ (coupleResonator (run {} ringCalls) 0 "Cr").2 = .error .valueError ∧
    (coupleResonator (run {} ringCalls) 1 "Lr").2 = .error .typeError := by decide +kernel

/-- **C28** After `removeAllResonators` no node has a resonator, and nothing else changes. -/
theorem C28_remove (l : List Call) (hok : ∀ x ∈ l, x.OK) :
    (∀ n r, (removeAllResonators (run {} l)).resonators.get? n = some r → r = none) ∧
    { removeAllResonators (run {} l) with resonators := (run {} l).resonators } = run {} l := by
  refine ⟨fun n r h => ?_, rfl⟩
  rcases foldl_set_none _ _ _ _ h with ⟨_, h1⟩ | ⟨h1, h2⟩
  · exact h1
  · exact absurd (resonator_nodes l hok n r h2).1 h1

theorem foldl_set_keys {d d' : Dict Node (Option Resonator)} (h : Dict.keys d = Dict.keys d') : ∀ ns : List Node,
    Dict.keys (ns.foldl (fun d n => Dict.set d n none) d) = Dict.keys (ns.foldl (fun d n => Dict.set d n none) d') := by
  intro ns
  induction ns generalizing d d' with
  | nil => exact h
  | cons a ns ih =>
    apply ih
    by_cases ha : a ∈ Dict.keys d
    · rw [Dict.keys_set_of_mem _ ha, Dict.keys_set_of_mem _ (h ▸ ha), h]
    · rw [Dict.keys_set_of_not_mem _ ha, Dict.keys_set_of_not_mem _ (h ▸ ha), h]

theorem all_none_eq {d d' : Dict Node (Option Resonator)} (hk : Dict.keys d = Dict.keys d') (h : ∀ p ∈ d, p.2 = none) (h' : ∀ p ∈ d', p.2 = none) :
    d = d' := by
  induction d generalizing d' with
  | nil => cases d' with
    | nil => rfl
    | cons p d' => simp [Dict.keys] at hk
  | cons p d ih => cases d' with
    | nil => simp [Dict.keys] at hk
    | cons p' d' =>
      simp only [Dict.keys, List.map_cons, List.cons.injEq] at hk
      rw [ih hk.2 (fun q hq => h q (by simp [hq])) (fun q hq => h' q (by simp [hq]))]
      have e1 := h p (by simp)
      have e2 := h' p' (by simp)
      rw [show p = p' from Prod.ext hk.1 (e1.trans e2.symm)]

theorem resonators_nodup (l : List Call) (hok : ∀ x ∈ l, x.OK) : (Dict.keys (run {} l).resonators).Nodup := by
  refine (run_inv' (P := fun g => (Dict.keys g.resonators).Nodup) hok (by simp [Dict.keys]) ?_).2.2
  intro g c hc hi ht h
  cases c with
  | addBranch o a b c =>
    simp only [step]
    rcases (addBranch_frame (o := o) (g := g) (a := a) (b := b) (c := c)).2.2.2 with h1 | ⟨_, h1⟩
    · rw [h1]; exact h
    · rw [h1]; unfold updateCouplings
      simp only
      split_ifs
      · exact h
      · exact Dict.nodup_keys_set h _ _
      · exact Dict.nodup_keys_set h _ _
      · exact Dict.nodup_keys_set (Dict.nodup_keys_set h _ _) _ _
  | addFluxBias c s m => simp only [step]; rw [addFluxBias_frame]; exact h
  | coupleBranches a b m => simp only [step]; rw [coupleBranches_frame]; exact h
  | addChargeBias n s m => simp only [step]; rw [addChargeBias_frame]; exact h
  | removeAllResonators =>
    simp only [step, removeAllResonators]
    generalize g.graph.nodes = ns
    generalize g.resonators = d at h
    induction ns generalizing d with
    | nil => exact h
    | cons a ns ih => exact ih _ (Dict.nodup_keys_set h _ _)
  | coupleResonator n c =>
    simp only [step]
    cases hr : (coupleResonator g n c).2 with
    | error x => rw [coupleResonator_err hr]; exact h
    | ok u =>
      obtain ⟨k1, k2, k3, k4, k5, k6⟩ := coupleResonator_ok hr
      rw [k6]; exact Dict.nodup_keys_set h _ _

/-- **C28** `removeAllResonators` undoes exactly the resonator couplings: after any history, coupling any number of
resonators and removing them gives the state in which they had never been coupled. -/
theorem C28_remove_undoes (l : List Call) (hok : ∀ x ∈ l, x.OK) (rs : List (ℕ × String))
    (h0 : ∀ n r, (run {} l).resonators.get? n = some r → r = none) :
    run {} (l ++ rs.map (fun p => Call.coupleResonator p.1 p.2) ++ [Call.removeAllResonators]) =
      run {} (l ++ [Call.removeAllResonators]) := by
  have hnd := resonators_nodup
  have hkeys : ∀ (rs : List (ℕ × String)) (g : CG), ∃ d, run g (rs.map (fun p => Call.coupleResonator p.1 p.2)) = { g with resonators := d } ∧
      Dict.keys d = Dict.keys g.resonators := by
    intro rs
    induction rs with
    | nil => intro g; exact ⟨g.resonators, rfl, rfl⟩
    | cons p rs ih =>
      intro g
      have hstep : ∃ d, (coupleResonator g p.1 p.2).1 = { g with resonators := d } ∧ Dict.keys d = Dict.keys g.resonators := by
        cases hr : (coupleResonator g p.1 p.2).2 with
        | error x => exact ⟨g.resonators, coupleResonator_err hr, rfl⟩
        | ok u =>
          obtain ⟨k1, k2, k3, k4, k5, k6⟩ := coupleResonator_ok hr
          exact ⟨_, k6, Dict.keys_set_of_mem _ (Dict.mem_keys_of_get? k3)⟩
      obtain ⟨d, hd1, hd2⟩ := hstep
      obtain ⟨d', hd1', hd2'⟩ := ih { g with resonators := d }
      refine ⟨d', ?_, hd2'.trans hd2⟩
      rw [List.map_cons]
      change run (coupleResonator g p.1 p.2).1 _ = _
      rw [hd1, hd1']
  have hok2 : ∀ x ∈ l ++ rs.map (fun p => Call.coupleResonator p.1 p.2), x.OK := by
    intro x hx
    rcases List.mem_append.1 hx with hx | hx
    · exact hok x hx
    · obtain ⟨p, _, rfl⟩ := List.mem_map.1 hx; trivial
  obtain ⟨d, hd1, hd2⟩ := hkeys rs (run {} l)
  have e1 : run {} (l ++ rs.map (fun p => Call.coupleResonator p.1 p.2) ++ [Call.removeAllResonators]) =
      removeAllResonators (run {} (l ++ rs.map fun p => Call.coupleResonator p.1 p.2)) := by rw [run_append]; rfl
  have e2 : run {} (l ++ [Call.removeAllResonators]) = removeAllResonators (run {} l) := by rw [run_append]; rfl
  have hall : ∀ l : List Call, (∀ x ∈ l, x.OK) → ∀ p ∈ (removeAllResonators (run {} l)).resonators, p.2 = none := by
    intro l hok p hp
    have hn := hnd (l ++ [Call.removeAllResonators]) (by
      intro x hx
      rcases List.mem_append.1 hx with hx | hx
      · exact hok x hx
      · rw [List.mem_singleton.1 hx]; trivial)
    rw [run_append] at hn
    exact (C28_remove l hok).1 p.1 p.2 (Dict.get?_of_mem hn hp)
  have r1 := hall _ hok2
  have r2 := hall l hok
  rw [e1, e2]
  rw [run_append, hd1] at r1 ⊢
  unfold removeAllResonators at r1 r2 ⊢
  simp only at r1 r2 ⊢
  rw [all_none_eq (foldl_set_keys hd2 _) r1 r2]

example : ∀ n r, (run {} ringCalls).resonators.get? n = some r → r = none := by
  have h : ∀ p ∈ (run {} ringCalls).resonators, p.2 = none := by decide +kernel
  exact fun n r h' => h (n, r) (Dict.mem_of_get? h')

/-- **C28 is false** in one point: the coupling capacitance of one resonator can be used for another one, for a charge
bias, and for a branch added later. -/
theorem C28_name_reused_false :
    let l := ringCalls ++ [Call.coupleResonator 1 "Cr", Call.coupleResonator 2 "Cr", Call.addChargeBias 1 (some "a") (some "Cr"),
      Call.addBranch Orc.id 0 2 "Cr"]
    ((run {} l).resonators.get? 1).map (Option.map Resonator.coupling) = some (some "Cr") ∧
    ((run {} l).resonators.get? 2).map (Option.map Resonator.coupling) = some (some "Cr") ∧
    (run {} l).chargeBias = [(1, ⟨some "Cr", "a"⟩)] ∧ (run {} l).cmap.get? (0, 2, 0) = some "Cr" := by
  decide +kernel

end Verif.Props
