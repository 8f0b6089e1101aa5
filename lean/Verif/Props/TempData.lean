import Verif.Lemmas.TempData

/-!
# Properties C53 and C54: temporary data
-/

set_option linter.unusedVariables false

namespace Verif.Props

open Verif Verif.Temp Verif.Spec

variable {A : Type}

theorem tinv_start {root : Path} {ident : ℕ → ℕ} {w₀ : World A} (h : w₀.objs = []) : TInv root ident w₀ := by
  constructor <;> · intro i o ho; rw [h] at ho; simp at ho

theorem runT_append (root : Path) (ident : ℕ → ℕ) (w : World A) (h h' : List (TCall A)) :
    runT root ident w (h ++ h') = runT root ident (runT root ident w h) h' := by
  unfold runT; rw [List.foldl_append]

/-- C53: whatever a program did before (`h₁`, any number of `TempData` instances with distinct identities, on
any initial file system), an instance with a session can write a part, and whatever happens afterwards (`h₂`)
short of clearing that very session, the returned name reads back what was written and no write by anyone
returns that name again. -/
theorem C53_part_survives (root : Path) (hroot : ∃ r, root = '/' :: r) (ident : ℕ → ℕ)
    (hid : Function.Injective ident) (w₀ : World A) (h₀ : w₀.objs = []) (h₁ : List (TCall A)) (i : ℕ) (a : A)
    (hs : sessionExists (runT root ident w₀ h₁) i = true) :
    ∃ w' f, writePart (runT root ident w₀ h₁) i a = (w', .ok f) ∧ sessionDir root (ident i) <+: f ∧
      ∀ h₂ : List (TCall A), TCall.clearSession i ∉ h₂ →
        readPart (runT root ident w' h₂) f = .ok a ∧ f ∉ writtenT root ident w' h₂ := by
  have hinv : TInv root ident (runT root ident w₀ h₁) := tinv_runT hid h₁ w₀ (tinv_start h₀)
  generalize runT root ident w₀ h₁ = w at hs hinv
  unfold sessionExists at hs
  split at hs
  · cases hs
  · rename_i o ho
    obtain ⟨hp, hdir⟩ := hinv.session i o ho hs
    have hd : dirOf (partName o.path o.count) ∈ w.dirs := by
      rw [hp, partName_eq, sessionDir_eq, dirOf_append_sep _ _ (partName_tail _), ← sessionDir_eq]
      exact hdir
    have hw : writePart w i a = ({ w with files := w.files.set (partName o.path o.count) a
                                          objs := w.objs.set i { o with count := o.count + 1 } },
        .ok (partName o.path o.count)) := by
      unfold writePart
      simp only [ho]
      exact if_pos (Or.inr hd)
    refine ⟨_, _, hw, by rw [hp, partName_eq]; exact List.prefix_append _ _, ?_⟩
    have hinv' : TInv root ident (writePart w i a).1 := tinv_run hid w hinv (.writePart i a)
    rw [hw] at hinv'
    have hpart : PartInv root ident i o.count a { w with files := w.files.set (partName o.path o.count) a
                                                         objs := w.objs.set i { o with count := o.count + 1 } } :=
      ⟨hinv', ⟨_, List.getElem?_set_self (List.getElem?_eq_some_iff.1 ho).1, hs, by simp⟩,
        by simp only; rw [hp, Dict.get?_set_self]⟩
    rw [hp] at hpart ⊢
    generalize ({ w with files := w.files.set (partName (sessionDir root (ident i)) o.count) a
                         objs := w.objs.set i { path := sessionDir root (ident i), exists_ := o.exists_, count := o.count + 1 } } : World A) = w₂ at hpart
    intro h₂
    induction h₂ generalizing w₂ with
    | nil =>
      intro _
      exact ⟨by simp only [runT, List.foldl_nil, readPart]; rw [hpart.file], by simp [writtenT]⟩
    | cons c h₂ ih =>
      intro hc
      simp only [List.mem_cons, not_or] at hc
      obtain ⟨h1, h2⟩ := partInv_run hroot hid hpart c (fun e => hc.1 e.symm)
      obtain ⟨h3, h4⟩ := ih _ h1 hc.2
      refine ⟨h3, ?_⟩
      simp only [writtenT, List.mem_append, not_or]
      refine ⟨?_, h4⟩
      intro hm
      rw [Option.mem_toList] at hm
      exact h2 hm

/-- C54: clearing a session succeeds, removes exactly the files under that session's directory, leaves every
other instance as it was, and the instance can open a session and write again. -/
theorem C54_clear_session (root : Path) (hroot : ∃ r, root = '/' :: r) (ident : ℕ → ℕ)
    (hid : Function.Injective ident) (w₀ : World A) (h₀ : w₀.objs = []) (h₁ : List (TCall A)) (i : ℕ)
    (hs : sessionExists (runT root ident w₀ h₁) i = true) :
    ∃ w', clearSession (runT root ident w₀ h₁) i = (w', .ok ()) ∧
      (∀ f a, readPart w' f = .ok a ↔
        readPart (runT root ident w₀ h₁) f = .ok a ∧ ¬ sessionDir root (ident i) <+: f) ∧
      (∀ j t, j ≠ i → readPart w' (sessionDir root (ident j) ++ t) =
        readPart (runT root ident w₀ h₁) (sessionDir root (ident j) ++ t)) ∧
      sessionExists w' i = false ∧
      (∀ j, j ≠ i → w'.objs[j]? = (runT root ident w₀ h₁).objs[j]?) ∧
      ∀ a, ∃ w'' f, newSession root w' i (ident i) = (w'', .ok (sessionDir root (ident i))) ∧
        sessionExists w'' i = true ∧ (writePart w'' i a).2 = .ok f := by
  have hinv : TInv root ident (runT root ident w₀ h₁) := tinv_runT hid h₁ w₀ (tinv_start h₀)
  have hcl : runT root ident w₀ (h₁ ++ [.clearSession i]) = (clearSession (runT root ident w₀ h₁) i).1 := by
    rw [runT_append]; rfl
  have hcn : runT root ident w₀ (h₁ ++ [.clearSession i] ++ [.newSession i]) =
      (newSession root (clearSession (runT root ident w₀ h₁) i).1 i (ident i)).1 := by
    rw [runT_append, hcl]; rfl
  have hsurv := fun a => C53_part_survives root hroot ident hid w₀ h₀ (h₁ ++ [.clearSession i] ++ [.newSession i]) i a
  rw [hcn] at hsurv
  generalize runT root ident w₀ h₁ = w at hs hinv hsurv ⊢
  clear hcl hcn
  unfold sessionExists at hs
  split at hs
  · cases hs
  · rename_i o ho
    obtain ⟨hp, hdir⟩ := hinv.session i o ho hs
    have hlen := (List.getElem?_eq_some_iff.1 ho).1
    have hclr : clearSession w i = ({ files := w.files.filter (fun p => ! (sessionDir root (ident i)).isPrefixOf p.1)
                                      dirs := w.dirs.filter (fun d => ! (sessionDir root (ident i)).isPrefixOf d)
                                      objs := w.objs.set i ⟨[], false, 0⟩ }, .ok ()) := by
      unfold clearSession rmtree
      simp only [ho, hs, if_true, hp, hdir]
    rw [hclr] at hsurv
    refine ⟨_, hclr, ?_, ?_, ?_, ?_, ?_⟩
    · intro f a
      unfold readPart
      simp only
      rw [get?_filter_key w.files (fun p => ! (sessionDir root (ident i)).isPrefixOf p)]
      by_cases hf : sessionDir root (ident i) <+: f
      · have : (sessionDir root (ident i)).isPrefixOf f = true := List.isPrefixOf_iff_prefix.2 hf
        simp [this, hf]
      · have : (sessionDir root (ident i)).isPrefixOf f = false := by
          rw [Bool.eq_false_iff]; intro hc; exact hf (List.isPrefixOf_iff_prefix.1 hc)
        simp [this, hf]
    · intro j t hj
      unfold readPart
      simp only
      rw [get?_filter_key w.files (fun p => ! (sessionDir root (ident i)).isPrefixOf p), if_pos]
      simp only [Bool.not_eq_true', Bool.eq_false_iff, ne_eq, List.isPrefixOf_iff_prefix]
      intro hc
      exact hj (hid (sessionDir_prefix hc)).symm
    · unfold sessionExists
      simp only
      rw [List.getElem?_set_self hlen]
    · intro j hj
      simp only
      rw [List.getElem?_set_ne (fun e => hj e.symm)]
    · intro a
      have hns : ∀ w'' : World A, w''.objs[i]? = some ⟨[], false, 0⟩ → ∃ w₃, newSession root w'' i (ident i) =
          (w₃, .ok (sessionDir root (ident i))) ∧ sessionExists w₃ i = true := by
        intro w'' ho''
        unfold newSession
        simp only [ho'']
        rw [← sessionDir_eq]
        refine ⟨_, rfl, ?_⟩
        unfold sessionExists
        simp only
        rw [List.getElem?_set_self (List.getElem?_eq_some_iff.1 ho'').1]
      obtain ⟨w₃, h3, h4⟩ := hns { files := w.files.filter (fun p => ! (sessionDir root (ident i)).isPrefixOf p.1),
                                    dirs := w.dirs.filter (fun d => ! (sessionDir root (ident i)).isPrefixOf d),
                                    objs := w.objs.set i ⟨[], false, 0⟩ } (List.getElem?_set_self hlen)
      rw [h3] at hsurv
      obtain ⟨w₄, f, h5, _⟩ := hsurv a h4
      exact ⟨w₃, f, h3, h4, by rw [h5]⟩

/-! ### Concrete instances -/

/-- Two instances with sessions; both write, then the second clears. -/
def demoT : List (TCall ℕ) :=
  [.new, .new, .newSession 0, .newSession 1, .writePart 0 7, .writePart 1 8, .writePart 0 9]

def demoRoot : Path := "/tmp/.pycqed/".toList

/-- Memory addresses. -/
def demoIdent (i : ℕ) : ℕ := 16 * i + 1

def emptyWorld : World ℕ := { files := [], dirs := [], objs := [] }

theorem demoIdent_inj : Function.Injective demoIdent := by
  intro a b h; unfold demoIdent at h; omega

/-- The hypotheses of C53 and C54 hold after `demoT`, and the parts really are there. -/
example : sessionExists (runT demoRoot demoIdent emptyWorld demoT) 0 = true ∧
    sessionExists (runT demoRoot demoIdent emptyWorld demoT) 1 = true ∧
    writtenT demoRoot demoIdent emptyWorld demoT =
      ["/tmp/.pycqed/session-1/part-0.bin".toList, "/tmp/.pycqed/session-11/part-0.bin".toList,
       "/tmp/.pycqed/session-1/part-1.bin".toList] := by
  decide +kernel

/-- Clearing the session `session-1` keeps the part of `session-11`. -/
example : (readPart (runT demoRoot demoIdent emptyWorld (demoT ++ [.clearSession 0]))
      "/tmp/.pycqed/session-11/part-0.bin".toList).toOption = some 8 ∧
    (readPart (runT demoRoot demoIdent emptyWorld (demoT ++ [.clearSession 0]))
      "/tmp/.pycqed/session-1/part-0.bin".toList).toOption = none := by
  decide +kernel

/-- C53 needs the session: two instances without one overwrite each other's parts in the root directory. -/
theorem C53_false_without_session :
    ∃ (w w' : World ℕ) (f : Path), w = runT demoRoot demoIdent emptyWorld [.new, .new] ∧
      writePart w 0 7 = (w', .ok f) ∧
      (readPart (runT demoRoot demoIdent w' [.writePart 1 8]) f).toOption = some 8 :=
  ⟨_, (writePart (runT demoRoot demoIdent emptyWorld [.new, .new]) 0 7).1,
    "/tmp/.pycqed/part-0.bin".toList, rfl, Prod.ext rfl (by decide +kernel), by decide +kernel⟩

/-- C53 needs distinct identities: an instance whose identity (memory address) was used before, by an
instance that is gone but whose file names are still held, overwrites the old parts. -/
theorem C53_false_recycled_identity :
    ∃ (ident : ℕ → ℕ) (w w' : World ℕ) (f : Path),
      w = runT demoRoot ident emptyWorld [.new, .new, .newSession 0, .newSession 1] ∧
      sessionExists w 0 = true ∧ writePart w 0 7 = (w', .ok f) ∧
      (readPart (runT demoRoot ident w' [.writePart 1 8]) f).toOption = some 8 :=
  ⟨fun _ => 1, _, (writePart (runT demoRoot (fun _ => 1) emptyWorld [.new, .new, .newSession 0, .newSession 1]) 0 7).1,
    "/tmp/.pycqed/session-1/part-0.bin".toList, rfl, by decide +kernel, Prod.ext rfl (by decide +kernel),
    by decide +kernel⟩

/-- A remark on C54: after clearing, a write without a new session goes to the current directory. -/
theorem C54_remark_write_after_clear :
    writtenT demoRoot demoIdent emptyWorld [.new, .newSession 0, .clearSession 0, .writePart 0 7] =
      ["part-0.bin".toList] := by
  decide +kernel

end Verif.Props
