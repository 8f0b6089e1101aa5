import Verif.Spec.Expressions
import Verif.Lemmas.Again
import Verif.Lemmas.SymbolicInd
import Verif.Props.Machine

/-!
# The values of the expressions of a circuit
-/

namespace Verif.Props

open Verif Verif.Spec Verif.PC Verif.Sym Verif.Circuit Verif.Derived

/-! ### The same formula in expressions and in numbers -/

section Relation

variable {K K' : Type}

theorem foldl_rel {α β β' : Type} (P : β → β' → Prop) {f : β → α → β} {f' : β' → α → β'} : ∀ (l : List α) (x : β) (x' : β'), P x x' →
    (∀ a ∈ l, ∀ y y', P y y' → P (f y a) (f' y' a)) → P (l.foldl f x) (l.foldl f' x') := by
  intro l
  induction l with
  | nil => intro x x' h _; exact h
  | cons a l ih =>
    intro x x' h hf
    exact ih _ _ (hf a (by simp) _ _ h) fun b hb => hf b (by simp [hb])

/-- A component of a branch, of a coupling or of a gate. -/
def ReadsBare (g : CG) (c : String) : Prop :=
  (∃ e, g.cmap.get? e = some c) ∨ c ∈ Dict.keys g.coupled ∨ ∃ n b, g.chargeBias.get? n = some b ∧ b.comp = some c

theorem ReadsBare.reads {g : CG} {c : String} (h : ReadsBare g c) : Reads g c := by
  rcases h with h | h | h
  · exact Or.inl h
  · exact Or.inr (Or.inl h)
  · exact Or.inr (Or.inr (Or.inl h))

/-- Two ways of reading the matrix element by element. -/
def MatRel (R : K → K' → Prop) (M : Mat K) (M' : Mat K') : Prop := ∀ i j, R (M i j) (M' i j)

theorem capacitance_rel [Zero K] [Add K] [Sub K] [Zero K'] [Add K'] [Sub K'] {R : K → K' → Prop} (h0 : R 0 0)
    (hadd : ∀ a b x y, R a x → R b y → R (a + b) (x + y)) (hsub : ∀ a b x y, R a x → R b y → R (a - b) (x - y)) {val : String → K}
    {val' : String → K'} {res : Resonator → K} {res' : Resonator → K'} {g : CG} (hval : ∀ c, ReadsBare g c → R (val c) (val' c))
    (hres : ∀ n r, g.resonators.get? n = some (some r) → R (res r) (res' r)) {M : Mat K} {M' : Mat K'} (h : capacitance val res g = .ok M)
    (h' : capacitance val' res' g = .ok M') : MatRel R M M' := by
  unfold capacitance at h h'
  split_ifs at h h'
  cases h
  cases h'
  have hA : ∀ (i j : ℕ) (c : String) (N : Mat K) (N' : Mat K'), MatRel R N N' → R (val c) (val' c) → MatRel R (N.addAt i j (val c)) (N'.addAt i j (val' c)) := by
    intro i j c N N' hN hc a b
    unfold Mat.addAt
    split_ifs
    · exact hadd _ _ _ _ (hN a b) hc
    · exact hN a b
  have hS : ∀ (i j : ℕ) (c : String) (N : Mat K) (N' : Mat K'), MatRel R N N' → R (val c) (val' c) → MatRel R (N.subAt i j (val c)) (N'.subAt i j (val' c)) := by
    intro i j c N N' hN hc a b
    unfold Mat.subAt
    split_ifs
    · exact hsub _ _ _ _ (hN a b) hc
    · exact hN a b
  apply foldl_rel (MatRel R)
  · apply foldl_rel (MatRel R)
    · exact fun _ _ => h0
    · intro p _ N N' hN
      unfold diagNode
      have h1 : MatRel R ((incident g.graph p.1).foldl (diagEdge val g p.2) N) ((incident g.graph p.1).foldl (diagEdge val' g p.2) N') := by
        apply foldl_rel (MatRel R) _ _ _ hN
        intro e _ N N' hN
        unfold diagEdge
        cases hc : g.cmap.get? e with
        | none => exact hN
        | some c =>
          simp only
          split_ifs
          · exact hA _ _ _ _ _ hN (hval c (Or.inl ⟨e, hc⟩))
          · exact hN
      have h2 : MatRel R (diagGate val g p.1 p.2 ((incident g.graph p.1).foldl (diagEdge val g p.2) N))
          (diagGate val' g p.1 p.2 ((incident g.graph p.1).foldl (diagEdge val' g p.2) N')) := by
        unfold diagGate
        cases hc : g.chargeBias.get? p.1 with
        | none => exact h1
        | some b =>
          simp only
          cases hb : b.comp with
          | none => exact h1
          | some c => exact hA _ _ _ _ _ h1 (hval c (Or.inr (Or.inr ⟨_, b, hc, hb⟩)))
      unfold diagRes
      rcases hr : g.resonators.get? p.1 with _ | _ | r
      · exact h2
      · exact h2
      · intro a b
        simp only [Mat.addAt]
        split_ifs
        · exact hadd _ _ _ _ (h2 a b) (hres _ _ hr)
        · exact h2 a b
  · intro e _ N N' hN
    unfold offEdge
    cases hc : g.cmap.get? e with
    | none => exact hN
    | some c =>
      simp only
      split_ifs
      · exact hN
      · exact hS _ _ _ _ _ (hS _ _ _ _ _ hN (hval c (Or.inl ⟨e, hc⟩))) (hval c (Or.inl ⟨e, hc⟩))
      · exact hN

/-- The entries of a branch inductance matrix without couplings. -/
theorem branchInductance_entries [Zero K] {val : String → K} {g : CG} (hc : g.coupled = []) {M : Mat K} (h : branchInductance val g = .ok M) (i j : ℕ) :
    M i j = if i = j then (((edges g)[i]?).bind (indVal val g)).getD 0 else 0 := by
  unfold branchInductance at h
  split at h
  · cases h
  rename_i M' hM
  rw [hc] at h
  cases h
  rw [foldlM_indDiag _ 0 _ _ hM i j]
  simp

theorem josephson_rel [Zero K] [Zero K'] {R : K → K' → Prop} (h0 : R 0 0) {val : String → K} {val' : String → K'} {g : CG}
    (hval : ∀ c, ReadsBare g c → R (val c) (val' c)) (i : ℕ) : R (josephsonVector val g i) (josephsonVector val' g i) := by
  unfold josephsonVector
  cases (edges g)[i]? with
  | none => exact h0
  | some e =>
    simp only
    cases hc : g.cmap.get? e with
    | none => exact h0
    | some c =>
      simp only
      split_ifs
      · exact hval c (Or.inl ⟨e, hc⟩)
      · exact h0

theorem phaseSlip_rel [Zero K] [Zero K'] {R : K → K' → Prop} (h0 : R 0 0) {val : String → K} {val' : String → K'} {g : CG}
    (hval : ∀ c, ReadsBare g c → R (val c) (val' c)) (i : ℕ) : R (Num.phaseSlipVector val g i) (Num.phaseSlipVector val' g i) := by
  unfold Num.phaseSlipVector
  cases (edges g)[i]? with
  | none => exact h0
  | some e =>
    simp only
    cases hc : g.cmap.get? e with
    | none => exact h0
    | some c =>
      simp only
      split_ifs
      · exact hval c (Or.inl ⟨e, hc⟩)
      · exact h0

theorem chargeBias_rel [Zero K] [Zero K'] {R : K → K' → Prop} (h0 : R 0 0) {q : String → K} {q' : String → K'} {g : CG}
    (hq : ∀ n b, g.chargeBias.get? n = some b → R (q b.suffix) (q' b.suffix)) (i : ℕ) : R (chargeBiasVector q g i) (chargeBiasVector q' g i) := by
  unfold chargeBiasVector
  cases (nodes g)[i]? with
  | none => exact h0
  | some n =>
    simp only
    cases hc : g.chargeBias.get? n with
    | none => exact h0
    | some b => exact hq n b hc

theorem biasVal_rel [Zero K] [Zero K'] {R : K → K' → Prop} (h0 : R 0 0) {φ : String → K} {φ' : String → K'} {d : Dict Edge (Option String)}
    (hφ : ∀ e s, d.get? e = some (some s) → R (φ s) (φ' s)) (e : Edge) : R (biasVal φ d e) (biasVal φ' d e) := by
  unfold biasVal
  rcases hd : d.get? e with _ | _ | s
  · exact h0
  · exact h0
  · exact hφ e s hd

theorem fluxBias_rel [Zero K] [Zero K'] {R : K → K' → Prop} (h0 : R 0 0) {φ : String → K} {φ' : String → K'} {g : CG} {b : Biases}
    (hφ : ∀ e s, b.flux.get? e = some (some s) → R (φ s) (φ' s)) (i : ℕ) : R (fluxBiasVector φ g b i) (fluxBiasVector φ' g b i) := by
  unfold fluxBiasVector
  cases (edges g)[i]? with
  | none => exact h0
  | some e =>
    simp only
    split_ifs
    · exact biasVal_rel h0 hφ e
    · exact h0

theorem fluxBiasInd_rel [Zero K] [Zero K'] {R : K → K' → Prop} (h0 : R 0 0) {φ : String → K} {φ' : String → K'} {g : CG} {b : Biases}
    (hφ : ∀ e s, b.flux.get? e = some (some s) → R (φ s) (φ' s)) (i : ℕ) : R (fluxBiasVectorInd φ g b i) (fluxBiasVectorInd φ' g b i) := by
  unfold fluxBiasVectorInd
  cases (edges g)[i]? with
  | none => exact h0
  | some e =>
    simp only
    split_ifs
    · exact biasVal_rel h0 hφ e
    · exact h0

end Relation

/-! ### Values at a state of the collection -/

variable {E D : Type}

/-- A symbol that is taken care of: that of a parameter with the value it ought to have, in the end from independent parameters. -/
def Known (eng : Engine E) (law : eng.Lawful D) (pc : PC E) (ρ : Verif.Sym → D) (s : Verif.Sym) : Prop :=
  ∃ n f, pc.getSymbol n = .ok s ∧ pc.getParameterValue n = .ok (some f) ∧ ρ s = law.ofPF f ∧ Denotes eng law pc n (law.ofPF f) ∧
    (¬ Parametric pc n ∨ HasSource eng pc n)

/-- The expression has the value `q`, and all its symbols are taken care of. -/
def Has (eng : Engine E) (law : eng.Lawful D) (pc : PC E) (ρ : Verif.Sym → D) (e : E) (q : ℚ) : Prop :=
  law.eval ρ e = some (law.ofPF (.fin q)) ∧ ∀ s ∈ eng.free e, Known eng law pc ρ s

/-- The values of all parameters. -/
def Valuation (eng : Engine E) (law : eng.Lawful D) (pc : PC E) (ρ : Verif.Sym → D) : Prop :=
  ∀ s n f, pc.getSymbol n = .ok s → pc.getParameterValue n = .ok (some f) → ρ s = law.ofPF f

theorem valuation_exists {eng : Engine E} (law : eng.Lawful D) {pc : PC E}
    (hg : ∀ a b s, pc.symMap.get? a = some s → pc.symMap.get? b = some s → a = b) : ∃ ρ, Valuation eng law pc ρ := by
  classical
  refine ⟨fun s => if hx : ∃ f n, pc.getSymbol n = .ok s ∧ pc.getParameterValue n = .ok (some f) then law.ofPF hx.choose else law.ofPF (.fin 0), ?_⟩
  intro s n f hs hv
  have hx : ∃ f n, pc.getSymbol n = .ok s ∧ pc.getParameterValue n = .ok (some f) := ⟨f, n, hs, hv⟩
  simp only [dif_pos hx]
  obtain ⟨m, hm, hvm⟩ := hx.choose_spec
  have hnm := hg _ _ s (getSymbol_iff.1 hm) (getSymbol_iff.1 hs)
  subst hnm
  rw [hv] at hvm
  simp only [Except.ok.injEq, Option.some.injEq] at hvm
  rw [← hvm]

section Values

variable {eng : Engine E} {law : eng.Lawful D} {A : Arith E} {pc : PC E} {ρ : Verif.Sym → D}

theorem has_value {e : E} {q : ℚ} (h : Has eng law pc ρ e q) : ValueIs eng law pc e (law.ofPF (.fin q)) := by
  refine ⟨ρ, h.1, fun s hs => ?_⟩
  obtain ⟨n, f, h1, h2, h3, -, -⟩ := h.2 s hs
  exact ⟨n, f, h1, h2, h3⟩

theorem has_lit (q : ℚ) : Has eng law pc ρ (eng.lit (.fin q)) q := by
  refine ⟨law.eval_lit _ _, fun s hs => ?_⟩
  rw [law.free_lit] at hs
  simp at hs

theorem has_add (L : ArithLaws eng law A) {a b : E} {x y : ℚ} (ha : Has eng law pc ρ a x) (hb : Has eng law pc ρ b y) :
    Has eng law pc ρ (A.add a b) (x + y) :=
  ⟨L.add _ _ _ _ _ ha.1 hb.1, fun s hs => (L.free_add a b s hs).elim (ha.2 s) (hb.2 s)⟩

theorem has_sub (L : ArithLaws eng law A) {a b : E} {x y : ℚ} (ha : Has eng law pc ρ a x) (hb : Has eng law pc ρ b y) :
    Has eng law pc ρ (A.sub a b) (x - y) :=
  ⟨L.sub _ _ _ _ _ ha.1 hb.1, fun s hs => (L.free_sub a b s hs).elim (ha.2 s) (hb.2 s)⟩

theorem has_mul (L : ArithLaws eng law A) {a b : E} {x y : ℚ} (ha : Has eng law pc ρ a x) (hb : Has eng law pc ρ b y) :
    Has eng law pc ρ (eng.mul a b) (x * y) :=
  ⟨by rw [law.eval_mul _ _ _ _ _ ha.1 hb.1, L.mul], fun s hs => (law.free_mul a b s hs).elim (ha.2 s) (hb.2 s)⟩

theorem has_dot (L : ArithLaws eng law A) {n : ℕ} {x y : ℕ → E} {u v : ℕ → ℚ} (hx : ∀ k < n, Has eng law pc ρ (x k) (u k))
    (hy : ∀ k < n, Has eng law pc ρ (y k) (v k)) : Has eng law pc ρ (A.dot eng n x y) (∑ k ∈ Finset.range n, u k * v k) := by
  unfold Arith.dot
  induction n with
  | zero => exact has_lit 0
  | succ n ih =>
    rw [List.range_succ, List.foldl_append, Finset.sum_range_succ]
    exact has_add L (ih (fun k hk => hx k (by omega)) fun k hk => hy k (by omega)) (has_mul L (hx n (by omega)) (hy n (by omega)))

theorem has_sym (L : ArithLaws eng law A) {s : Verif.Sym} {q : ℚ} (hk : Known eng law pc ρ s) (hq : ρ s = law.ofPF (.fin q)) : Has eng law pc ρ (A.sym s) q :=
  ⟨by rw [L.sym, hq], fun x hx => by rw [L.free_sym s x hx]; exact hk⟩

/-- The symbol of an independent parameter. -/
theorem has_independent (L : ArithLaws eng law A) (hρ : Valuation eng law pc ρ) {n : String} {s : Verif.Sym} {q : ℚ} (hs : pc.getSymbol n = .ok s)
    (hv : pc.getParameterValue n = .ok (some (.fin q))) (hp : ¬ Parametric pc n) : Has eng law pc ρ (A.sym s) q :=
  has_sym L ⟨n, .fin q, hs, hv, hρ s n _ hs hv, .independent n _ hp hv, Or.inl hp⟩ (hρ s n _ hs hv)

/-- The value of an expression that names only parameters with values. -/
theorem derived_computable (L : ArithLaws eng law A) {k : String} {e : E} {q : ℚ} (he : pc.getParametricExpression eng 0 k false = .ok e) (hf : eng.free e ≠ [])
    (hq : Has eng law pc ρ e q) (hadm : Admits pc k (.fin q)) : HasSource eng pc k ∧ Computable eng law pc k (.fin q) ∧ Denotes eng law pc k (law.ofPF (.fin q)) := by
  choose! owner f h1 h2 h3 h4 h5 using hq.2
  have hden : Denotes eng law pc k (law.ofPF (.fin q)) :=
    .parametric k e ρ owner _ he (fun x hx => h1 x hx) (fun x hx => by rw [h3 x hx]; exact h4 x hx) hq.1
  have hsrc : HasSource eng pc k := by
    obtain ⟨x, hx⟩ := List.exists_mem_of_ne_nil _ hf
    have hm : Mentions eng pc k (owner x) := ⟨e, x, he, h1 x hx, hx⟩
    rcases h5 x hx with hn | ⟨i, hi, ht⟩
    · exact ⟨_, hn, .single hm⟩
    · exact ⟨i, hi, .head hm ht⟩
  exact ⟨hsrc, ⟨_, hden, L.numbers q, hadm⟩, hden⟩

/-- The symbol of a derived parameter has the value of the expression that it stands for. -/
theorem has_derived (L : ArithLaws eng law A) (hρ : Valuation eng law pc ρ) (hup : UpToDate eng law pc) {k : String} {s : Verif.Sym} {e : E} {q : ℚ}
    (hs : pc.getSymbol k = .ok s) (he : pc.getParametricExpression eng 0 k false = .ok e) (hf : eng.free e ≠ []) (hq : Has eng law pc ρ e q)
    (hadm : Admits pc k (.fin q)) : Has eng law pc ρ (A.sym s) q := by
  obtain ⟨hsrc, hcomp, hden⟩ := derived_computable L he hf hq hadm
  have hv := hup k (.fin q) hsrc hcomp
  exact has_sym L ⟨k, .fin q, hs, hv, hρ s k _ hs hv, hden, Or.inr hsrc⟩ (hρ s k _ hs hv)

end Values

end Verif.Props
