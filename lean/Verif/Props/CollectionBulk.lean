import Verif.Model.CollectionBulk
import Verif.Model.Construct
import Verif.Props.Collection

/-!
# C84: reading and adding many parameters at once
-/

namespace Verif.Props

open Verif Verif.Spec Verif.PC

variable {E D : Type}

theorem valuesLoop (st : PC E) : ∀ (names : List String) (d d' : Dict String (Option PF)),
    names.foldlM (fun (d : Dict String (Option PF)) n =>
      match st.coll.get? n with
      | none => Except.error Err.valueError
      | some p => .ok (d.set n p.getValue)) d = .ok d' →
    (∀ n ∈ names, st.coll.get? n ≠ none) ∧ (∀ n, n ∈ d'.keys ↔ n ∈ d.keys ∨ n ∈ names) ∧ (d.keys.Nodup → d'.keys.Nodup) ∧
      ∀ n, (n ∈ names → (st.coll.get? n).map Param.getValue = d'.get? n) ∧ (n ∉ names → d'.get? n = d.get? n) := by
  intro names
  induction names with
  | nil =>
    intro d d' h
    simp only [List.foldlM_nil] at h
    cases h
    simp
  | cons m names ih =>
    intro d d' h
    rw [List.foldlM_cons] at h
    cases hm : st.coll.get? m with
    | none => rw [hm] at h; cases h
    | some p =>
      rw [hm] at h
      obtain ⟨h1, h2, h3, h4⟩ := ih _ _ h
      refine ⟨?_, fun n => ?_, fun hn => h3 (Dict.nodup_keys_set hn _ _), fun n => ?_⟩
      · intro n hn
        rcases List.mem_cons.1 hn with rfl | hn
        · rw [hm]; simp
        · exact h1 n hn
      · rw [h2, Dict.mem_keys_set, List.mem_cons]; tauto
      · obtain ⟨h5, h6⟩ := h4 n
        constructor
        · intro hn
          by_cases hnn : n ∈ names
          · exact h5 hnn
          · have hnm : n = m := (List.mem_cons.1 hn).resolve_right hnn
            rw [h6 hnn, hnm, hm, Dict.get?_set, if_pos rfl]; rfl
        · intro hn
          rw [List.mem_cons, not_or] at hn
          rw [h6 hn.2, Dict.get?_set, if_neg (Ne.symm hn.1)]

theorem values_fail (st : PC E) : ∀ (names : List String) (d : Dict String (Option PF)), (∃ n ∈ names, st.coll.get? n = none) →
    names.foldlM (fun (d : Dict String (Option PF)) n =>
      match st.coll.get? n with
      | none => Except.error Err.valueError
      | some p => .ok (d.set n p.getValue)) d = .error .valueError := by
  intro names
  induction names with
  | nil => rintro d ⟨n, hn, -⟩; cases hn
  | cons m names ih =>
    rintro d ⟨n, hn, hnone⟩
    rw [List.foldlM_cons]
    cases hm : st.coll.get? m with
    | none => rfl
    | some p =>
      refine ih _ ⟨n, ?_, hnone⟩
      rcases List.mem_cons.1 hn with rfl | hn
      · rw [hm] at hnone; cases hnone
      · exact hn

theorem values_succeed (st : PC E) : ∀ (names : List String) (d : Dict String (Option PF)), (∀ n ∈ names, st.coll.get? n ≠ none) →
    ∃ d', names.foldlM (fun (d : Dict String (Option PF)) n =>
      match st.coll.get? n with
      | none => Except.error Err.valueError
      | some p => .ok (d.set n p.getValue)) d = .ok d' := by
  intro names
  induction names with
  | nil => intro d _; exact ⟨d, rfl⟩
  | cons m names ih =>
    intro d h
    rw [List.foldlM_cons]
    cases hm : st.coll.get? m with
    | none => exact absurd hm (h m (by simp))
    | some p => exact ih _ fun n hn => h n (by simp [hn])

theorem value_known (st : PC E) (n : String) : (∃ v, st.getParameterValue n = .ok v) ↔ st.coll.get? n ≠ none := by
  unfold getParameterValue
  cases st.coll.get? n <;> simp

/-- **C84** Reading many values at once gives, for exactly the names asked for, what reading them one by one gives, and does so whenever all of
them are known. -/
theorem C84_values (st : PC E) (names : List String) (hall : ∀ n ∈ names, ∃ v, st.getParameterValue n = .ok v) :
    ∃ d, st.getParameterValues names = .ok d ∧ d.keys.Nodup ∧ (∀ n, n ∈ d.keys ↔ n ∈ names) ∧
      ∀ n ∈ names, ∃ v, st.getParameterValue n = .ok v ∧ d.get? n = some v := by
  simp only [value_known] at hall
  obtain ⟨d, hd⟩ := values_succeed st names [] hall
  obtain ⟨-, h2, h3, h4⟩ := valuesLoop st names [] d hd
  refine ⟨d, hd, h3 List.nodup_nil, fun n => by rw [h2]; simp [Dict.keys], fun n hn => ?_⟩
  have h5 := (h4 n).1 hn
  unfold getParameterValue
  cases h : st.coll.get? n with
  | none => exact absurd h (hall n hn)
  | some p => rw [h] at h5; exact ⟨_, rfl, h5.symm⟩

/-- **C84** One unknown name, and nothing is read. -/
theorem C84_unknown (st : PC E) (names : List String) (n : String) (hn : n ∈ names) (h : ¬ ∃ v, st.getParameterValue n = .ok v) :
    st.getParameterValues names = .error .valueError :=
  values_fail st names [] ⟨n, hn, by rwa [value_known, not_not] at h⟩

/-- **C84** `allParametersSet` says whether every parameter has a value. -/
theorem C84_all_set (eng : Engine E) (hfree : ∀ e, (eng.free e).Nodup) (st : PC E) (hr : Reachable eng st) :
    st.allParametersSet = true ↔ ∀ n v, st.getParameterValue n = .ok v → v ≠ none := by
  have hk := (Reachable.inv hfree hr).1.collKeys
  unfold allParametersSet getParameterValuesDict
  rw [List.all_eq_true]
  constructor
  · intro h n v hv
    unfold getParameterValue at hv
    cases hp : st.coll.get? n with
    | none => rw [hp] at hv; cases hv
    | some p =>
      rw [hp] at hv
      cases hv
      have := h _ (List.mem_map.2 ⟨_, Dict.mem_of_get? hp, rfl⟩)
      exact Option.isSome_iff_ne_none.1 this
  · intro h x hx
    obtain ⟨⟨n, p⟩, hm, rfl⟩ := List.mem_map.1 hx
    refine Option.isSome_iff_ne_none.2 (h n _ ?_)
    unfold getParameterValue
    rw [Dict.get?_of_mem hk hm]

/-- **C84** Asking whether a parameterisation is ready: it answers whether all the parameters it is recorded to depend on have values, and fails
for a parameter without a parameterisation or one of whose parameters has been removed. -/
theorem C84_ready (st : PC E) (name : String) :
    (∀ names, st.getParameterisationParameters name = .ok names → (∀ n ∈ names, ∃ v, st.getParameterValue n = .ok v) →
      ∃ b, st.parameterisationParametersSet name = .ok b ∧ (b = true ↔ ∀ n ∈ names, ∃ f, st.getParameterValue n = .ok (some f))) ∧
    ((¬ Parametric st name ∨ ∃ names, st.getParameterisationParameters name = .ok names ∧ ∃ n ∈ names, ¬ ∃ v, st.getParameterValue n = .ok v) →
      st.parameterisationParametersSet name = .error .valueError) := by
  constructor
  · intro names hnames hall
    unfold getParameterisationParameters at hnames
    unfold parameterisationParametersSet
    cases hp : st.parz.get? name with
    | none => rw [hp] at hnames; cases hnames
    | some q =>
      obtain ⟨ex, ns⟩ := q
      rw [hp] at hnames
      cases hnames
      obtain ⟨d, h1, h2, h3, h4⟩ := C84_values st names hall
      simp only [h1]
      refine ⟨_, rfl, ?_⟩
      rw [List.all_eq_true]
      constructor
      · intro h n hn
        obtain ⟨v, hv, hd⟩ := h4 n hn
        obtain ⟨f, hf⟩ := Option.isSome_iff_exists.1 (h _ (Dict.mem_of_get? hd))
        exact ⟨f, by rw [hv]; exact congrArg _ hf⟩
      · rintro h ⟨n, v⟩ hm
        have hn : n ∈ names := (h3 n).1 (List.mem_map.2 ⟨_, hm, rfl⟩)
        obtain ⟨v', hv', hd⟩ := h4 n hn
        obtain ⟨f, hf⟩ := h n hn
        rw [Dict.get?_of_mem h2 hm] at hd
        cases hd
        rw [hv'] at hf
        cases hf
        rfl
  · rintro (h | ⟨names, hnames, n, hn, h⟩)
    · unfold parameterisationParametersSet
      have : st.parz.get? name = none := by
        rw [Dict.get?_eq_none_iff]; exact h
      simp only [this]
    · unfold getParameterisationParameters at hnames
      unfold parameterisationParametersSet
      cases hp : st.parz.get? name with
      | none => rfl
      | some q =>
        obtain ⟨ex, ns⟩ := q
        rw [hp] at hnames
        cases hnames
        simp only [C84_unknown st names n hn h]

/-! ### Adding many parameters -/

/-- Parameters and their symbols are recorded under the same names. -/
def SameKeys (st : PC E) : Prop := ∀ n, n ∈ st.symMap.keys ↔ n ∈ st.coll.keys

theorem sameKeys_add (st : PC E) (h : SameKeys st) (n : String) (o : Option Sym) : SameKeys (st.addParameter n o).1 := by
  unfold addParameter
  split_ifs
  · exact h
  · split
    · exact h
    · intro m; simp only; rw [Dict.mem_keys_set, Dict.mem_keys_set, h]

theorem sameKeys_call (eng : Engine E) (st : PC E) (c : Call E) (h : SameKeys st) : SameKeys (call eng st c).1 := by
  unfold call
  cases c.op with
  | addParameter n o => exact sameKeys_add st h n o
  | rmParameter n =>
    simp only [rmParameter]
    split_ifs
    · intro m; simp only; rw [Dict.mem_keys_del, Dict.mem_keys_del, h]
    · exact h
  | setParameterValue n v =>
    have := setParameterValue_frame eng c.ho c.fuel st n v
    intro m
    simp only; rw [this.1, setParameterValue_keys]; exact h m
  | setParameterValues a =>
    have := setParameterValues_frame eng c.ho c.fuel st a
    intro m
    simp only; rw [this.1, setParameterValues_keys]; exact h m
  | addParameterisation n e =>
    simp only [addParameterisation]
    split_ifs
    · split
      · exact h
      · split_ifs <;> exact h
    · exact h
  | addParameterisationPrefactor n e =>
    simp only [addParameterisationPrefactor]
    split <;> exact h
  | rmParameterisation n =>
    simp only [rmParameterisation]
    split_ifs
    · split
      · exact h
      · split <;> exact h
    · exact h
  | onParam n pc =>
    simp only
    split
    · exact h
    · rename_i p hp
      intro m; simp only
      rw [Dict.keys_set_of_mem _ (Dict.mem_keys_of_get? hp)]; exact h m

theorem sameKeys_reachable {eng : Engine E} {st : PC E} (h : Reachable eng st) : SameKeys st := by
  obtain ⟨names, st₀, hist, h1, rfl⟩ := h
  have h0 : SameKeys st₀ := (new_good (eng := eng) h1).sameKeys
  clear h1
  unfold runPC
  induction hist generalizing st₀ with
  | nil => exact h0
  | cons c hist ih => exact ih _ (sameKeys_call eng st₀ c h0)

/-- What one `addParameter` does. -/
theorem addParameter_bulk_cases (st : PC E) (n : String) (o : Option Sym) :
    (st.coll.get? n ≠ none ∧ st.addParameter n o = (st, .ok ())) ∨
    (st.coll.get? n = none ∧ ((∃ e, Param.new n = .error e ∧ st.addParameter n o = (st, .error e)) ∨
      ∃ p, Param.new n = .ok p ∧ st.addParameter n o = ({ st with coll := st.coll.set n { p with symbol := o.getD p.symbol }, symMap := st.symMap.set n (o.getD p.symbol), graph := st.graph.addNode n }, .ok ()))) := by
  unfold addParameter
  by_cases h : st.coll.has n = true
  · left
    refine ⟨?_, by rw [if_pos h]⟩
    unfold Dict.has at h
    exact Option.isSome_iff_ne_none.1 h
  · right
    have hn : st.coll.get? n = none := by
      unfold Dict.has at h
      simpa using h
    refine ⟨hn, ?_⟩
    rw [if_neg h]
    cases hp : Param.new n with
    | error e => exact .inl ⟨e, rfl, rfl⟩
    | ok p =>
      refine .inr ⟨p, rfl, ?_⟩
      cases o <;> rfl

theorem symbolsLoop : ∀ (names : List String) (os : List (Option Sym)) (st st' : PC E) (d d' : Dict String Sym), SameKeys st →
    st.getSymbolsLoop names os d = (st', .ok d') →
    (∀ n, n ∈ d'.keys ↔ n ∈ d.keys ∨ n ∈ names) ∧ (∀ n ∈ names, d'.get? n = st'.symMap.get? n ∧ d'.get? n ≠ none) ∧ (∀ n, n ∉ names → d'.get? n = d.get? n) ∧
    (∀ n, st.coll.get? n ≠ none → st'.coll.get? n = st.coll.get? n ∧ st'.symMap.get? n = st.symMap.get? n) ∧
    (∀ n, st.coll.get? n = none → n ∉ names → st'.coll.get? n = none) ∧
    (∀ n, st.coll.get? n = none → n ∈ names → ∃ o p, Dict.get? (names.zip os) n = some o ∧ Param.new n = .ok p ∧
      st'.coll.get? n = some { p with symbol := o.getD p.symbol } ∧ st'.symMap.get? n = some (o.getD p.symbol)) ∧
    st'.parz = st.parz := by
  intro names
  induction names with
  | nil =>
    intro os st st' d d' hk h
    cases os <;> (unfold getSymbolsLoop at h; cases h; simp)
  | cons m names ih =>
    intro os st st' d d' hk h
    cases os with
    | nil => unfold getSymbolsLoop at h; cases h
    | cons o os =>
      unfold getSymbolsLoop at h
      have hk1 := sameKeys_add st hk m o
      rcases addParameter_bulk_cases st m o with ⟨hm, ha⟩ | ⟨hm, ⟨e, hp, ha⟩ | ⟨p, hp, ha⟩⟩
      · rw [ha] at h hk1
        simp only at h
        cases hs : st.symMap.get? m with
        | none => rw [hs] at h; cases h
        | some s =>
          rw [hs] at h
          simp only at h
          obtain ⟨h1, h2, h3, h4, h5, h6, h7⟩ := ih os st st' _ d' hk h
          refine ⟨fun n => ?_, fun n hn => ?_, fun n hn => ?_, h4, fun n hn hn' => h5 n hn fun hh => hn' (by simp [hh]), fun n hn hn' => ?_, h7⟩
          · rw [h1, Dict.mem_keys_set, List.mem_cons]; tauto
          · by_cases hnn : n ∈ names
            · exact h2 n hnn
            · have hnm : n = m := (List.mem_cons.1 hn).resolve_right hnn
              subst hnm
              rw [h3 n hnn, Dict.get?_set, if_pos rfl, (h4 n hm).2, hs]; simp
          · rw [List.mem_cons, not_or] at hn
            rw [h3 n hn.2, Dict.get?_set, if_neg (Ne.symm hn.1)]
          · have hnm : m ≠ n := by rintro rfl; exact hm hn
            obtain ⟨o', p, q1, q2⟩ := h6 n hn ((List.mem_cons.1 hn').resolve_left (Ne.symm hnm))
            refine ⟨o', p, ?_, q2⟩
            rw [List.zip_cons_cons, Dict.get?_cons, if_neg hnm]; exact q1
      · rw [ha] at h; cases h
      · rw [ha] at h hk1
        simp only at h
        rw [Dict.get?_set, if_pos rfl] at h
        simp only at h
        obtain ⟨h1, h2, h3, h4, h5, h6, h7⟩ := ih os _ st' _ d' hk1 h
        simp only [Dict.get?_set] at h4 h5 h6
        have hm4 := h4 m (by simp)
        rw [if_pos rfl, if_pos rfl] at hm4
        refine ⟨fun n => ?_, fun n hn => ?_, fun n hn => ?_, fun n hn => ?_, fun n hn hn' => ?_, fun n hn hn' => ?_, h7⟩
        · rw [h1, Dict.mem_keys_set, List.mem_cons]; tauto
        · by_cases hnn : n ∈ names
          · exact h2 n hnn
          · have hnm : n = m := (List.mem_cons.1 hn).resolve_right hnn
            subst hnm
            rw [h3 n hnn, Dict.get?_set, if_pos rfl, hm4.2]; simp
        · rw [List.mem_cons, not_or] at hn
          rw [h3 n hn.2, Dict.get?_set, if_neg (Ne.symm hn.1)]
        · have hnm : m ≠ n := by rintro rfl; exact hn hm
          have := h4 n (by rw [if_neg hnm]; exact hn)
          rwa [if_neg hnm, if_neg hnm] at this
        · rw [List.mem_cons, not_or] at hn'
          exact h5 n (by rw [if_neg (Ne.symm hn'.1)]; exact hn) hn'.2
        · by_cases hnm : m = n
          · subst hnm
            refine ⟨o, p, by rw [List.zip_cons_cons, Dict.get?_cons, if_pos rfl], hp, hm4.1, hm4.2⟩
          · obtain ⟨o', p', q1, q2⟩ := h6 n (by rw [if_neg hnm]; exact hn) ((List.mem_cons.1 hn').resolve_left (Ne.symm hnm))
            refine ⟨o', p', ?_, q2⟩
            rw [List.zip_cons_cons, Dict.get?_cons, if_neg hnm]; exact q1

/-- **C84** What `getSymbols` does when it succeeds: it hands out the symbols of exactly the names asked for; a parameter that existed is left as it
was, with its symbol, whatever the override; the others are made, without a value, with the symbol of the first override given for the name
or the one derived from the name; no parameterisation changes. -/
theorem C84_get_symbols (eng : Engine E) (st : PC E) (hr : Reachable eng st) (names : List String) (os : Option (List (Option Sym))) (st' : PC E)
    (d : Dict String Sym) (h : st.getSymbols names os = (st', .ok d)) :
    (∀ n, n ∈ d.keys ↔ n ∈ names) ∧ (∀ n ∈ names, ∃ s, d.get? n = some s ∧ st'.getSymbol n = .ok s) ∧
    (∀ n v, st.getParameterValue n = .ok v → st'.coll.get? n = st.coll.get? n ∧ st'.getSymbol n = st.getSymbol n) ∧
    (∀ n, (¬ ∃ v, st.getParameterValue n = .ok v) → ((∃ v, st'.getParameterValue n = .ok v) ↔ n ∈ names)) ∧
    (∀ n ∈ names, (¬ ∃ v, st.getParameterValue n = .ok v) → st'.getParameterValue n = .ok none ∧
      ∃ o s, Dict.get? (names.zip (os.getD (names.map fun _ => none))) n = some o ∧ o.or (Param.symbolOf n) = some s ∧ st'.getSymbol n = .ok s) ∧
    st'.getParametricParametersList = st.getParametricParametersList ∧
    ∀ n fuel, st'.getParametricExpression eng fuel n false = st.getParametricExpression eng fuel n false ∧
      st'.getParameterisationParameters n = st.getParameterisationParameters n := by
  obtain ⟨h1, h2, h3, h4, h5, h6, h7⟩ := symbolsLoop names _ st st' [] d (sameKeys_reachable hr) h
  have hunk : ∀ n, (¬ ∃ v, st.getParameterValue n = .ok v) → st.coll.get? n = none := by
    intro n hn; rwa [value_known, not_not] at hn
  have hnew : ∀ n p, Param.new n = .ok p → p.value = none ∧ Param.symbolOf n = some p.symbol := by
    intro n p hp
    unfold Param.new at hp
    split_ifs at hp
    simp only at hp
    split at hp
    · cases hp
    · split at hp
      · cases hp
      · split_ifs at hp
        split at hp
        · cases hp
        · cases hp
          rename_i s hs
          exact ⟨rfl, hs⟩
  refine ⟨fun n => by rw [h1]; simp [Dict.keys], fun n hn => ?_, fun n v hv => ?_, fun n hn => ⟨fun hv => ?_, fun hnn => ?_⟩, fun n hn hnk => ?_, ?_, fun n fuel => ⟨?_, ?_⟩⟩
  · obtain ⟨a, b⟩ := h2 n hn
    obtain ⟨s, hs⟩ := Option.ne_none_iff_exists'.1 b
    refine ⟨s, hs, ?_⟩
    unfold getSymbol
    rw [← a, hs]
  · have := h4 n ((value_known st n).1 ⟨v, hv⟩)
    refine ⟨this.1, ?_⟩
    unfold getSymbol
    rw [this.2]
  · by_contra hnn
    exact (value_known st' n).1 hv (h5 n (hunk n hn) hnn)
  · obtain ⟨o, p, -, -, q, -⟩ := h6 n (hunk n hn) hnn
    rw [value_known, q]; simp
  · obtain ⟨o, p, q1, q2, q3, q4⟩ := h6 n (hunk n hnk) hn
    obtain ⟨r1, r2⟩ := hnew n p q2
    refine ⟨?_, o, o.getD p.symbol, q1, ?_, ?_⟩
    · unfold getParameterValue
      rw [q3]
      exact congrArg _ r1
    · rw [r2]; cases o <;> rfl
    · unfold getSymbol
      rw [q4]
  · unfold getParametricParametersList
    rw [h7]
  · unfold getParametricExpression
    rw [h7]; rfl
  · unfold getParameterisationParameters
    rw [h7]

/-- A parameter of this name can be made. -/
def GoodName (n : String) : Prop := ' ' ∉ n.toList ∧ n ≠ ""

theorem new_iff (n : String) : (∃ p, Param.new n = .ok p) ↔ GoodName n := by
  unfold GoodName Param.new
  by_cases hs : ' ' ∈ n.toList
  · rw [if_pos (by simpa using hs)]
    simp [hs]
  · rw [if_neg (by simpa using hs)]
    have hb : Param.checkBounds .typeError (.list [.float .ninf, .float .pinf]) = .ok (.ninf, .pinf) := by decide +kernel
    have hu : PyVal.toFloat? (.float (.fin 1)) = some (.fin 1) := rfl
    have hl : PF.lt (.fin 1) (.fin 0) = false := by decide +kernel
    simp only [hb, hu, hl]
    by_cases hn : n = ""
    · subst hn
      simp [Param.symbolOf]
    · have : ∃ c cs, n.toList = c :: cs := by
        cases hl : n.toList with
        | nil => exact absurd (String.toList_eq_nil_iff.1 hl) hn
        | cons c cs => exact ⟨c, cs, rfl⟩
      obtain ⟨c, cs, hc⟩ := this
      simp [Param.symbolOf, hc, hn]
      rw [hc] at hs
      simpa using hs

theorem symbolsLoop_ok : ∀ (names : List String) (os : List (Option Sym)) (st : PC E) (d : Dict String Sym), SameKeys st →
    ((∃ st' d', st.getSymbolsLoop names os d = (st', .ok d')) ↔
      names.length ≤ os.length ∧ ∀ n ∈ names, st.coll.get? n ≠ none ∨ GoodName n) := by
  intro names
  induction names with
  | nil => intro os st d hk; cases os <;> simp [getSymbolsLoop]
  | cons m names ih =>
    intro os st d hk
    cases os with
    | nil => simp [getSymbolsLoop]
    | cons o os =>
      unfold getSymbolsLoop
      have hk1 := sameKeys_add st hk m o
      rcases addParameter_bulk_cases st m o with ⟨hm, ha⟩ | ⟨hm, ⟨e, hp, ha⟩ | ⟨p, hp, ha⟩⟩
      · rw [ha] at hk1 ⊢
        simp only
        cases hs : st.symMap.get? m with
        | none =>
          exfalso
          rw [Dict.get?_eq_none_iff] at hs
          exact hs ((hk m).2 ((Dict.mem_keys_iff _ _).2 (Option.isSome_iff_ne_none.2 hm)))
        | some s =>
          simp only
          rw [ih os st _ hk1]
          simp only [List.length_cons, Nat.add_le_add_iff_right, List.forall_mem_cons]
          tauto
      · rw [ha]
        have hg : ¬ GoodName m := by rw [← new_iff, hp]; simp
        simp [hm, hg]
      · rw [ha] at hk1 ⊢
        have hg : GoodName m := by rw [← new_iff, hp]; simp
        simp only
        rw [Dict.get?_set, if_pos rfl]
        simp only
        rw [ih os _ _ hk1]
        simp only [List.length_cons, Nat.add_le_add_iff_right, List.forall_mem_cons, Dict.get?_set]
        refine and_congr_right fun _ => ⟨fun h => ⟨.inr hg, fun n hn => ?_⟩, fun h n hn => ?_⟩
        · by_cases hnm : m = n
          · exact .inr (hnm ▸ hg)
          · have := h n hn
            rwa [if_neg hnm] at this
        · by_cases hnm : m = n
          · left; rw [if_pos hnm]; simp
          · rw [if_neg hnm]; exact h.2 n hn

/-- **C84** `getSymbols` succeeds exactly when there are enough overrides and every name not yet known is one a parameter can have: not empty, and
without a space. -/
theorem C84_get_symbols_ok (eng : Engine E) (st : PC E) (hr : Reachable eng st) (names : List String) (os : Option (List (Option Sym))) :
    (∃ st' d, st.getSymbols names os = (st', .ok d)) ↔ (∀ l, os = some l → names.length ≤ l.length) ∧
      ∀ n ∈ names, (∃ v, st.getParameterValue n = .ok v) ∨ (' ' ∉ n.toList ∧ n ≠ "") := by
  unfold getSymbols
  rw [symbolsLoop_ok names _ st [] (sameKeys_reachable hr)]
  simp only [value_known]
  cases os <;> simp [GoodName]

/-- **C84** `addParameters` leaves the collection as `getSymbols` without overrides does, and fails in the same cases with the same error. -/
theorem C84_add_parameters (eng : Engine E) (st : PC E) (hr : Reachable eng st) (names : List String) :
    (st.addParameters names).1 = (st.getSymbols names none).1 ∧ ∀ e, (st.addParameters names).2 = .error e ↔ (st.getSymbols names none).2 = .error e := by
  unfold getSymbols
  simp only [Option.getD_none]
  have hk := sameKeys_reachable hr
  clear hr
  generalize ([] : Dict String Sym) = d
  induction names generalizing st d with
  | nil => simp [addParameters, getSymbolsLoop]
  | cons m names ih =>
    unfold addParameters
    rw [List.map_cons]
    unfold getSymbolsLoop
    have hk1 := sameKeys_add st hk m none
    rcases addParameter_bulk_cases st m none with ⟨hm, ha⟩ | ⟨hm, ⟨e, hp, ha⟩ | ⟨p, hp, ha⟩⟩
    · rw [ha] at hk1 ⊢
      simp only
      cases hs : st.symMap.get? m with
      | none =>
        exfalso
        rw [Dict.get?_eq_none_iff] at hs
        exact hs ((hk m).2 ((Dict.mem_keys_iff _ _).2 (Option.isSome_iff_ne_none.2 hm)))
      | some s => exact ih st hk _
    · rw [ha]; simp
    · rw [ha] at hk1 ⊢
      simp only
      rw [Dict.get?_set, if_pos rfl]
      exact ih _ hk1 _

/-! ### The hypotheses can be met -/

theorem demo_reachable : Reachable Ast.engine demo := by
  obtain ⟨n, s, h, h1, -, h2⟩ := demo_clean
  exact ⟨n, s, h, h1, h2⟩

/-- In the demonstration collection: values known and unknown, a parameterisation that is ready, and symbols for an old and a new name. -/
example : demo.getParameterValues ["B", "D"] = .ok [("B", some (.fin 3)), ("D", some (.fin 14))] ∧
    demo.getParameterValues ["B", "X"] = .error .valueError ∧ demo.parameterisationParametersSet "A" = .ok true ∧
    demo₀.allParametersSet = false ∧ demo.allParametersSet = true ∧
    (demo.getSymbols ["A", "X"] (some [some "S", some "T"])).2 = .ok [("A", "A_{}"), ("X", "T")] ∧
    (demo.getSymbols ["X", "Y Z"] none).2 = .error .valueError ∧ (demo.getSymbols ["X", "Y"] (some [none])).2 = .error .indexError := by
  decide +kernel

/-- **C84** A failing `addParameters` (or `getSymbols`) is not undone: the names before the first bad one have been added, and only those. -/
theorem C84_failure (st : PC E) (names : List String) (e : Err) (h : (st.addParameters names).2 = .error e) :
    ∃ pre n post, names = pre ++ n :: post ∧ st.addParameters pre = ((st.addParameters names).1, .ok ()) ∧ ¬ (' ' ∉ n.toList ∧ n ≠ "") := by
  induction names generalizing st with
  | nil => cases h
  | cons m names ih =>
    unfold addParameters at h ⊢
    rcases addParameter_bulk_cases st m none with ⟨hm, ha⟩ | ⟨hm, ⟨e', hp, ha⟩ | ⟨p, hp, ha⟩⟩
    · rw [ha] at h ⊢
      obtain ⟨pre, n, post, h1, h2, h3⟩ := ih st h
      refine ⟨m :: pre, n, post, by rw [h1]; rfl, ?_, h3⟩
      simp only [ha]; exact h2
    · rw [ha]
      refine ⟨[], m, names, rfl, rfl, fun hg => ?_⟩
      obtain ⟨p, hp'⟩ := (new_iff m).2 hg
      rw [hp] at hp'; cases hp'
    · rw [ha] at h ⊢
      obtain ⟨pre, n, post, h1, h2, h3⟩ := ih _ h
      refine ⟨m :: pre, n, post, by rw [h1]; rfl, ?_, h3⟩
      simp only [ha]; exact h2

example : (demo.addParameters ["X", "Y Z", "W"]).2 = .error .valueError ∧ (demo.addParameters ["X", "Y Z", "W"]).1 = (demo.addParameters ["X"]).1 := by
  decide +kernel

/-- **C84** Names and symbols: in every state reached by calls that do not reuse symbols, `getParameterFromSymbol` is the inverse of
`getSymbol`, and raises `ValueError` for a symbol that no parameter has; the list of symbols holds the symbol of each parameter, once. -/
theorem C84_symbols (eng : Engine E) (law : eng.Lawful D) (st : PC E) (hc : CleanReachable eng st) :
    (∀ s n, st.getParameterFromSymbol s = .ok n ↔ st.getSymbol n = .ok s) ∧
    (∀ s, (∀ n, st.getSymbol n ≠ .ok s) → st.getParameterFromSymbol s = .error .valueError) ∧
    (∀ s, s ∈ st.getParameterSymbolsList ↔ ∃ n ∈ st.getParameterNamesList, st.getSymbol n = .ok s) ∧
    st.getParameterSymbolsList.Nodup ∧ st.getParameterSymbolsList.length = st.getParameterNamesList.length := by
  have hg := CleanReachable.good law hc
  have hsym : ∀ n s, st.getSymbol n = .ok s ↔ st.symMap.get? n = some s := by
    intro n s
    unfold PC.getSymbol
    cases hh : st.symMap.get? n with
    | none => simp
    | some t => simp
  have hdet : ∀ s n, st.symMap.get? n = some s → st.getParameterFromSymbol s = .ok n := fun s n h => hg.fromSymbol.2 h
  have hinv : ∀ s n, st.getParameterFromSymbol s = .ok n → st.symMap.get? n = some s := fun s n h => hg.fromSymbol.1 h
  refine ⟨fun s n => ⟨fun h => (hsym n s).2 (hinv s n h), fun h => hdet s n ((hsym n s).1 h)⟩, ?_, ?_, ?_, ?_⟩
  · intro s h
    cases hx : st.getParameterFromSymbol s with
    | ok n => exact absurd ((hsym n s).2 (hinv s n hx)) (h n)
    | error e =>
      unfold getParameterFromSymbol at hx
      split at hx
      · cases hx; rfl
      · cases hx
  · intro s
    unfold getParameterSymbolsList getParameterNamesList Dict.values
    rw [List.mem_map]
    constructor
    · rintro ⟨p, hp, rfl⟩
      have := Dict.get?_of_mem hg.symKeys (show (p.1, p.2) ∈ st.symMap from hp)
      exact ⟨p.1, (hg.sameKeys _).1 (Dict.mem_keys_of_get? this), (hsym _ _).2 this⟩
    · rintro ⟨n, -, h⟩
      exact ⟨_, Dict.mem_of_get? ((hsym _ _).1 h), rfl⟩
  · unfold getParameterSymbolsList Dict.values
    refine List.Nodup.map_on ?_ (List.Nodup.of_map Prod.fst hg.symKeys)
    intro p hp q hq hpq
    have h1 := Dict.get?_of_mem hg.symKeys (show (p.1, p.2) ∈ st.symMap from hp)
    have h2 := Dict.get?_of_mem hg.symKeys (show (q.1, q.2) ∈ st.symMap from hq)
    rw [← hpq] at h2
    exact Prod.ext (hg.symInj _ _ _ h1 h2) hpq
  · unfold getParameterSymbolsList getParameterNamesList Dict.values
    have : st.symMap.keys.length = st.coll.keys.length := by
      refine List.Perm.length_eq ((List.perm_ext_iff_of_nodup hg.symKeys hg.collKeys).2 fun n => hg.sameKeys n)
    simpa [Dict.keys] using this

/-- `C84_symbols` applies to the example (`demo_clean`). -/
example : CleanReachable Ast.engine demo ∧ demo.getParameterFromSymbol "A_{}" = .ok "A" ∧ demo.getParameterFromSymbol "q" = .error .valueError :=
  ⟨demo_clean, by decide +kernel⟩

end Verif.Props
