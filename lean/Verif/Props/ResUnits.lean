import Verif.Model.ResUnits
import Verif.Spec.ResUnits
import Verif.Lemmas.Good
import Verif.Model.AstEngine

/-!
# Property C68: constructing numerical systems from one symbolic system
-/

namespace Verif.Props

open Verif Verif.Spec Verif.PC Verif.Num

variable {E D : Type}

/-- The product of a value with the factors that the list gives to the name, in order. -/
def scaled {eng : Engine E} (law : eng.Lawful D) (name : String) : List (String × PF) → D → D
  | [], d => d
  | (n, f) :: l, d => scaled law name l (if n = name then law.mulD d (law.ofPF f) else d)

theorem scaled_append {eng : Engine E} (law : eng.Lawful D) (name : String) : ∀ (l l' : List (String × PF)) (d : D),
    scaled law name (l ++ l') d = scaled law name l' (scaled law name l d)
  | [], _, _ => rfl
  | (n, f) :: l, l', d => by simp only [List.cons_append, scaled, scaled_append law name l]

/-- Every parametric parameter keeps being one, over the same parameters, with the factors applied to its value. -/
def Scaled {eng : Engine E} (law : eng.Lawful D) (l : List (String × PF)) (pc pc' : PC E) : Prop :=
  (∀ n, pc'.parz.has n = pc.parz.has n) ∧
  ∀ n e ns, pc.parz.get? n = some (e, ns) → ∃ e', pc'.parz.get? n = some (e', ns) ∧
    ∀ ρ d, law.eval ρ e = some d → law.eval ρ e' = some (scaled law n l d)

theorem Scaled.trans {eng : Engine E} {law : eng.Lawful D} {l l' : List (String × PF)} {pc pc1 pc2 : PC E} (h1 : Scaled law l pc pc1)
    (h2 : Scaled law l' pc1 pc2) : Scaled law (l ++ l') pc pc2 := by
  refine ⟨fun n => (h2.1 n).trans (h1.1 n), fun n e ns h => ?_⟩
  obtain ⟨e', a1, a2⟩ := h1.2 n e ns h
  obtain ⟨e'', b1, b2⟩ := h2.2 n e' ns a1
  exact ⟨e'', b1, fun ρ d hd => by rw [scaled_append]; exact b2 ρ _ (a2 ρ d hd)⟩

theorem prefactors_spec (eng : Engine E) (law : eng.Lawful D) : ∀ (l : List (String × PF)) (pc : PC E),
    (∀ p ∈ l, pc.parz.has p.1 = true) → ∃ pc', prefactors eng l pc = (pc', .ok ()) ∧ pc'.coll = pc.coll ∧ pc'.symMap = pc.symMap ∧
      pc'.graph = pc.graph ∧ Scaled law l pc pc' := by
  intro l
  induction l with
  | nil => intro pc _; exact ⟨pc, rfl, rfl, rfl, rfl, fun _ => rfl, fun n e ns h => ⟨e, h, fun ρ d hd => hd⟩⟩
  | cons x l ih =>
    obtain ⟨n, f⟩ := x
    intro pc hpc
    have h0 := hpc (n, f) (by simp)
    unfold Dict.has at h0
    obtain ⟨⟨e, ns⟩, he⟩ := Option.isSome_iff_exists.1 h0
    let pc1 : PC E := { pc with parz := pc.parz.set n (eng.mul e (eng.lit f), ns) }
    have hcall : pc.addParameterisationPrefactor eng n (eng.lit f) = (pc1, .ok ()) := by
      unfold PC.addParameterisationPrefactor
      rw [he]
    have hhas : ∀ m, pc1.parz.has m = pc.parz.has m := by
      intro m
      unfold Dict.has
      by_cases hm : n = m
      · subst hm
        rw [Dict.get?_set_self, he]; rfl
      · rw [Dict.get?_set_ne _ _ hm]
    obtain ⟨pc', h1, h2, h3, h4, h5⟩ := ih pc1 (fun p hp => by rw [hhas]; exact hpc p (by simp [hp]))
    refine ⟨pc', ?_, h2, h3, h4, ?_⟩
    · unfold prefactors
      rw [hcall]
      exact h1
    · refine Scaled.trans (l := [(n, f)]) ⟨hhas, fun m e' ns' h => ?_⟩ h5
      by_cases hm : n = m
      · subst hm
        rw [he] at h
        cases h
        refine ⟨_, Dict.get?_set_self _ _ _, fun ρ d hd => ?_⟩
        simp only [scaled, if_true]
        exact law.eval_mul ρ _ _ _ _ hd (law.eval_lit ρ f)
      · refine ⟨e', by rw [Dict.get?_set_ne _ _ hm]; exact h, fun ρ d hd => ?_⟩
        simp only [scaled, if_neg hm]
        exact hd

theorem construct_spec (eng : Engine E) (law : eng.Lawful D) (rs : List ResNames) : ∀ (fs : List ResPref) (pc : PC E),
    (∀ r ∈ rs, pc.parz.has r.Cr = true ∧ pc.parz.has r.Lr = true ∧ pc.parz.has r.gC = true ∧ pc.parz.has r.frl = true ∧ pc.parz.has r.Zrl = true) →
    ∃ pc', constructAll eng rs fs pc = (pc', .ok ()) ∧ pc'.coll = pc.coll ∧ pc'.symMap = pc.symMap ∧
      pc'.graph = pc.graph ∧ Scaled law (fs.flatMap fun f => rs.flatMap (resCalls f)) pc pc' := by
  intro fs
  induction fs with
  | nil => intro pc _; exact ⟨pc, rfl, rfl, rfl, rfl, fun _ => rfl, fun n e ns h => ⟨e, h, fun ρ d hd => hd⟩⟩
  | cons f fs ih =>
    intro pc hpc
    obtain ⟨pc1, h1, h2, h3, h4, h5⟩ := prefactors_spec eng law (rs.flatMap (resCalls f)) pc (by
      intro p hp
      obtain ⟨r, hr, hp⟩ := List.mem_flatMap.1 hp
      obtain ⟨u1, u2, u3, u4, u5⟩ := hpc r hr
      simp only [resCalls, List.mem_cons, List.not_mem_nil, or_false] at hp
      rcases hp with rfl | rfl | rfl | rfl | rfl <;> assumption)
    obtain ⟨pc', g1, g2, g3, g4, g5⟩ := ih pc1 (fun r hr => by simp only [h5.1]; exact hpc r hr)
    refine ⟨pc', ?_, g2.trans h2, g3.trans h3, g4.trans h4, ?_⟩
    · unfold constructAll setParameterUnits
      rw [h1]; exact g1
    · rw [List.flatMap_cons]
      exact h5.trans g5

theorem factor_iff {rs : List ResNames} {f : ResPref} {n : String} {x : PF} : (n, x) ∈ rs.flatMap (resCalls f) ↔ Factor rs f n x := by
  constructor
  · intro h
    obtain ⟨r, hr, h⟩ := List.mem_flatMap.1 h
    simp only [resCalls, List.mem_cons, List.not_mem_nil, or_false, Prod.mk.injEq] at h
    rcases h with ⟨rfl, rfl⟩ | ⟨rfl, rfl⟩ | ⟨rfl, rfl⟩ | ⟨rfl, rfl⟩ | ⟨rfl, rfl⟩
    exacts [.Cr hr, .Lr hr, .gC hr, .frl hr, .Zrl hr]
  · intro h
    cases h <;> refine List.mem_flatMap.2 ⟨_, by assumption, ?_⟩ <;> simp [resCalls]

theorem scaled_of_notMem {eng : Engine E} (law : eng.Lawful D) (name : String) : ∀ (l : List (String × PF)) (d : D), name ∉ l.map Prod.fst →
    scaled law name l d = d
  | [], _, _ => rfl
  | (n, f) :: l, d, h => by
    simp only [List.map_cons, List.mem_cons, not_or] at h
    simp only [scaled, if_neg (Ne.symm h.1)]
    exact scaled_of_notMem law name l d h.2

theorem scaled_once {eng : Engine E} (law : eng.Lawful D) (name : String) (x : PF) : ∀ (l : List (String × PF)) (d : D), (l.map Prod.fst).Nodup →
    (name, x) ∈ l → scaled law name l d = law.mulD d (law.ofPF x)
  | [], _, _, h => by simp at h
  | (n, f) :: l, d, hnd, h => by
    rw [List.map_cons, List.nodup_cons] at hnd
    rcases List.mem_cons.1 h with h | h
    · cases h
      simp only [scaled, if_true]
      exact scaled_of_notMem law name l _ hnd.1
    · have : n ≠ name := by
        rintro rfl
        exact hnd.1 (List.mem_map.2 ⟨_, h, rfl⟩)
      simp only [scaled, if_neg this]
      exact scaled_once law name x l d hnd.2 h

theorem keys_flatMap (rs : List ResNames) (f : ResPref) : (rs.flatMap (resCalls f)).map Prod.fst = rs.flatMap ResNames.all := by
  rw [List.map_flatMap]; rfl

/-- **C68** (what is true): constructing numerical systems with units `f₁, …, fₖ` on one symbolic system never raises, keeps all values,
symbols and dependencies, keeps the expression of every parameter that is not a derived parameter of a resonator, and multiplies each of those
by its factor in each of the units: by the product, not by the last one. -/
theorem C68_product (eng : Engine E) (law : eng.Lawful D) (rs : List ResNames) (hnd : (rs.flatMap ResNames.all).Nodup) (fs : List ResPref) (pc : PC E)
    (hpc : ∀ r ∈ rs, ∀ n ∈ r.all, pc.parz.has n = true) :
    ∃ pc', constructAll eng rs fs pc = (pc', .ok ()) ∧ pc'.coll = pc.coll ∧ pc'.symMap = pc.symMap ∧ pc'.graph = pc.graph ∧
      ∀ n e ns, pc.parz.get? n = some (e, ns) → ∃ e', pc'.parz.get? n = some (e', ns) ∧
        ∀ ρ d, law.eval ρ e = some d →
          ((∀ r ∈ rs, n ∉ r.all) → law.eval ρ e' = some d) ∧
          ∀ xs : List PF, List.Forall₂ (fun f x => Factor rs f n x) fs xs →
            law.eval ρ e' = some (xs.foldl (fun d x => law.mulD d (law.ofPF x)) d) := by
  obtain ⟨pc', h1, h2, h3, h4, h5⟩ := construct_spec eng law rs fs pc (fun r hr => by
    simpa [ResNames.all] using hpc r hr)
  refine ⟨pc', h1, h2, h3, h4, fun n e ns h => ?_⟩
  obtain ⟨e', a1, a2⟩ := h5.2 n e ns h
  refine ⟨e', a1, fun ρ d hd => ⟨fun hn => ?_, fun xs hx => ?_⟩⟩
  · rw [a2 ρ d hd, scaled_of_notMem]
    intro hc
    rw [List.map_flatMap] at hc
    obtain ⟨f, -, hc⟩ := List.mem_flatMap.1 hc
    rw [keys_flatMap] at hc
    obtain ⟨r, hr, hc⟩ := List.mem_flatMap.1 hc
    exact hn r hr hc
  · rw [a2 ρ d hd]
    congr 1
    clear a2 hd h5 h1 hpc
    induction hx generalizing d with
    | nil => rfl
    | cons hfx _ ih =>
      rw [List.flatMap_cons, scaled_append, scaled_once law n _ _ d (by rw [keys_flatMap]; exact hnd) (factor_iff.2 hfx), ih]
      rfl

/-- **C68** (partial: for units all of whose factors are one): constructing any number of numerical systems changes no value. -/
theorem C68_partial (eng : Engine E) (law : eng.Lawful D) (rs : List ResNames) (hnd : (rs.flatMap ResNames.all).Nodup) (fs : List ResPref) (pc : PC E)
    (hpc : ∀ r ∈ rs, ∀ n ∈ r.all, pc.parz.has n = true)
    (hone : ∀ f ∈ fs, ∀ n x, Factor rs f n x → ∀ d, law.mulD d (law.ofPF x) = d) :
    ∃ pc', constructAll eng rs fs pc = (pc', .ok ()) ∧ pc'.coll = pc.coll ∧ pc'.symMap = pc.symMap ∧ pc'.graph = pc.graph ∧
      ∀ n e ns, pc.parz.get? n = some (e, ns) → ∃ e', pc'.parz.get? n = some (e', ns) ∧
        ∀ ρ d, law.eval ρ e = some d → law.eval ρ e' = some d := by
  obtain ⟨pc', h1, h2, h3, h4, h5⟩ := construct_spec eng law rs fs pc (fun r hr => by
    simpa [ResNames.all] using hpc r hr)
  refine ⟨pc', h1, h2, h3, h4, fun n e ns h => ?_⟩
  obtain ⟨e', a1, a2⟩ := h5.2 n e ns h
  refine ⟨e', a1, fun ρ d hd => ?_⟩
  rw [a2 ρ d hd]
  congr 1
  have : ∀ l : List (String × PF), (∀ p ∈ l, ∀ d, law.mulD d (law.ofPF p.2) = d) → scaled law n l d = d := by
    intro l
    induction l generalizing d with
    | nil => intro _; rfl
    | cons p l ih =>
      intro hl
      have h0 := hl p (by simp)
      obtain ⟨m, x⟩ := p
      simp only [scaled]
      split_ifs
      · simp only at h0
        rw [h0]; exact ih d hd (fun p hp => hl p (by simp [hp]))
      · exact ih d hd (fun p hp => hl p (by simp [hp]))
  apply this
  intro p hp
  obtain ⟨f, hf, hp⟩ := List.mem_flatMap.1 hp
  exact hone f hf p.1 p.2 (factor_iff.1 hp)

/-! ### A resonator with frequency `f1r` and impedance `Z1r`, whose capacitance and inductance stand for `1/(f Z)` and `Z/f` -/

def resNames : ResNames := ⟨"C1r", "L1r", "g1r", "f1rl", "Z1rl"⟩

def resPC0 : PC Ast := (PC.new ["f1r", "Z1r", "C1r", "L1r", "g1r", "f1rl", "Z1rl"]).toOption.getD
  { coll := [], symMap := [], parz := [], graph := { nodes := [], edges := [] } }

def resF : Ast := .sym "f_{1r}"
def resZ : Ast := .sym "Z_{1r}"

def resPC : PC Ast :=
  let pc := (resPC0.addParameterisation Ast.engine "C1r" (.inv (.mul resF resZ))).1
  let pc := (pc.addParameterisation Ast.engine "L1r" (.mul resZ (.inv resF))).1
  let pc := (pc.addParameterisation Ast.engine "g1r" (.mul resZ (.lit (.fin 1)))).1
  let pc := (pc.addParameterisation Ast.engine "f1rl" resF).1
  (pc.addParameterisation Ast.engine "Z1rl" resZ).1

def thousand : ResPref := ⟨.fin 1000, .fin 1000, .fin 1, .fin 1, .fin 1⟩

/-- The capacitance, after setting the frequency to 5 and the impedance to 2. -/
def resCap (pc : PC Ast) : Except Err (Option PF) :=
  let pc := (pc.setParameterValue Ast.engine HashOrder.id 20 "f1r" (.float (.fin 5))).1
  let pc := (pc.setParameterValue Ast.engine HashOrder.id 20 "Z1r" (.float (.fin 2))).1
  pc.getParameterValue "C1r"

/-- The example meets the hypotheses. -/
example : PC.new ["f1r", "Z1r", "C1r", "L1r", "g1r", "f1rl", "Z1rl"] = .ok resPC0 ∧ ([resNames].flatMap ResNames.all).Nodup ∧
    (∀ r ∈ [resNames], ∀ n ∈ r.all, resPC.parz.has n = true) ∧
    (∀ f ∈ [(⟨.fin 1, .fin 1, .fin 1, .fin 1, .fin 1⟩ : ResPref)], ∀ n x, Factor [resNames] f n x → x = .fin 1) ∧
    List.Forall₂ (fun f x => Factor [resNames] f "C1r" x) [thousand, thousand] [.fin 1000, .fin 1000] := by
  refine ⟨by decide +kernel, by decide +kernel, by decide +kernel, ?_, ?_⟩
  · intro f hf n x h
    rw [List.mem_singleton] at hf
    subst hf
    cases h <;> rfl
  · exact .cons (.Cr (r := resNames) (by simp)) (.cons (.Cr (r := resNames) (by simp)) .nil)

/-- **C68 is false**: with a factor of 1000 for the capacitance, the second numerical system built on the symbolic system sees a resonator
with a capacitance of 100000, the first one saw 100 - and sees 100000 itself from then on. -/
theorem C68_false : resCap (constructAll Ast.engine [resNames] [thousand] resPC).1 = .ok (some (.fin 100)) ∧
    resCap (constructAll Ast.engine [resNames] [thousand, thousand] resPC).1 = .ok (some (.fin 100000)) := by
  constructor <;> decide +kernel

end Verif.Props
