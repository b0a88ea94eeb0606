import Verif.Model.Stream
import Verif.Props.File
import Verif.Props.Restore

/-!
# C75: saving a forest when the file system fails
-/

set_option linter.unusedSectionVars false

namespace Utreexo
open Spec Ram File

namespace Stream

theorem writeAll_bad (out : ℕ → Option ℕ) : ∀ (ws : List (List Byte)) (st : Stream), st.good = false → ws.foldl (write out) st = st := by
  intro ws
  induction ws with
  | nil => intro st _; rfl
  | cons w ws ih =>
    intro st h
    rw [List.foldl_cons, show write out st w = st by unfold write; rw [h]; rfl, ih st h]

theorem writeAll_ok (out : ℕ → Option ℕ) : ∀ (ws : List (List Byte)) (st : Stream), st.good = true → st.isOpen = true →
    st.off ≤ st.file.length →
    (ws.foldl (write out) st).isOpen = true ∧ st.writes ≤ (ws.foldl (write out) st).writes ∧
    (((ws.foldl (write out) st).good = true ∧ (ws.foldl (write out) st).file = writeAt st.file st.off ws.flatten ∧
        (ws.foldl (write out) st).writes = st.writes + ws.length ∧
        ∀ i, st.writes ≤ i → i < (ws.foldl (write out) st).writes → out i = none) ∨
      ((ws.foldl (write out) st).good = false ∧
        (∃ k, (ws.foldl (write out) st).file = writeAt st.file st.off (ws.flatten.take k)) ∧
        ∃ i, st.writes ≤ i ∧ i < (ws.foldl (write out) st).writes ∧ out i ≠ none)) := by
  intro ws
  induction ws with
  | nil =>
    intro st h1 h2 h3
    refine ⟨h2, le_rfl, Or.inl ⟨h1, ?_, rfl, fun i h4 h5 => ?_⟩⟩
    · simp [writeAt]
    · simp only [List.foldl_nil] at h5; omega
  | cons w ws ih =>
    intro st h1 h2 h3
    rw [List.foldl_cons]
    have hf : ∀ (f : List Byte) (off : ℕ) (a b : List Byte), off ≤ f.length →
        writeAt (writeAt f off a) (off + a.length) b = writeAt f off (a ++ b) := by
      intro f off a b hl
      have := applyWrites_eq [a, b] f off hl
      simp only [applyWrites] at this
      rw [this]
      simp [writeAt]
    cases ho : out st.writes with
    | none =>
      have hw : write out st w = { st with file := writeAt st.file st.off w, off := st.off + w.length, writes := st.writes + 1 } := by
        unfold write; rw [h1, h2, ho]; rfl
      obtain ⟨a1, a2, a3⟩ := ih (write out st w) (by rw [hw]; exact h1) (by rw [hw]; exact h2) (by
        rw [hw]; simp only [writeAt, List.length_append, List.length_take, List.length_drop]; omega)
      generalize ws.foldl (write out) (write out st w) = st' at a1 a2 a3
      rw [hw] at a2 a3
      simp only at a2 a3
      refine ⟨a1, by omega, ?_⟩
      rcases a3 with ⟨b1, b2, b3, b4⟩ | ⟨b1, ⟨k, b2⟩, i, b3, b4, b5⟩
      · refine Or.inl ⟨b1, ?_, by rw [b3, List.length_cons]; omega, fun i hi hi' => ?_⟩
        · rw [b2, hf _ _ _ _ h3, List.flatten_cons]
        · by_cases e : i = st.writes
          · rw [e, ho]
          · exact b4 i (by omega) hi'
      · refine Or.inr ⟨b1, ⟨w.length + k, ?_⟩, i, by omega, b4, b5⟩
        rw [b2, hf _ _ _ _ h3, List.flatten_cons, List.take_append, List.take_of_length_le (l := w) (Nat.le_add_right _ _), Nat.add_sub_cancel_left]
    | some k =>
      have hw : write out st w = { st with file := writeAt st.file st.off (w.take k), good := false, writes := st.writes + 1 } := by
        unfold write; rw [h1, h2, ho]; rfl
      rw [writeAll_bad out ws _ (by rw [hw])]
      rw [hw]
      refine ⟨h2, by simp, Or.inr ⟨rfl, ?_, st.writes, le_rfl, by simp, by rw [ho]; simp⟩⟩
      refine ⟨min k w.length, ?_⟩
      simp only [List.flatten_cons]
      rw [List.take_append_of_le_length (by omega)]
      rcases Nat.le_total k w.length with h | h
      · rw [Nat.min_eq_left h]
      · rw [Nat.min_eq_right h, List.take_of_length_le h, List.take_of_length_le (le_refl _)]

/-- Saving one forest after the other. -/
def saved (big : Bool) (fs : List (RamForest Hash32)) (file : List Byte) : Res (List Byte) :=
  fs.foldlM (fun f s => File.commit big s f) file

/-- How the stream stands after the forests `fs` were to be saved: all of them have been, or the file is as if the process had
stopped in the middle of saving one of them. -/
def After (big : Bool) (out : ℕ → Option ℕ) (st : Stream) (fs : List (RamForest Hash32)) (st' : Stream) : Prop :=
  st'.isOpen = true ∧ st.writes ≤ st'.writes ∧
  ((st'.good = true ∧ saved big fs st.file = .ok st'.file ∧ ∀ i, st.writes ≤ i → i < st'.writes → out i = none) ∨
   (st'.good = false ∧ (∃ i, st.writes ≤ i ∧ i < st'.writes ∧ out i ≠ none) ∧
    ∃ pre s post k f, fs = pre ++ s :: post ∧ saved big pre st.file = .ok f ∧ crashFile big s f k = .ok st'.file))

theorem commit_after (big : Bool) (out : ℕ → Option ℕ) (st st' : Stream) (s : RamForest Hash32) (b : Bool) (h1 : st.good = true)
    (h2 : st.isOpen = true) (h : commit big out st s = .ok (b, st')) : b = true ∧ After big out st [s] st' := by
  unfold commit at h
  obtain ⟨ws, e1, e2⟩ := bind_eq_ok.1 h
  injection e2 with e2
  injection e2 with e2 e3
  have hs : seek0 st = { st with off := 0 } := by unfold seek0; rw [h1, h2]; rfl
  rw [hs] at e3
  obtain ⟨a1, a2, a3⟩ := writeAll_ok out ws { st with off := 0 } h1 h2 (Nat.zero_le _)
  rw [e3] at a1 a2 a3
  refine ⟨e2.symm, a1, a2, ?_⟩
  rcases a3 with ⟨b1, b2, -, b4⟩ | ⟨b1, ⟨k, b2⟩, b3⟩
  · refine Or.inl ⟨b1, ?_, b4⟩
    unfold saved
    rw [List.foldlM_cons]
    unfold File.commit
    rw [e1, ok_bind, applyWrites_eq _ _ _ (Nat.zero_le _), pure_ok, ok_bind, b2]
    rfl
  · refine Or.inr ⟨b1, b3, [], s, [], k, st.file, rfl, rfl, ?_⟩
    unfold crashFile
    rw [e1, ok_bind, b2]
    rfl

theorem commit_bad (big : Bool) (out : ℕ → Option ℕ) (st st' : Stream) (s : RamForest Hash32) (b : Bool) (h1 : st.good = false)
    (h : commit big out st s = .ok (b, st')) : b = true ∧ st' = st := by
  unfold commit at h
  obtain ⟨ws, e1, e2⟩ := bind_eq_ok.1 h
  injection e2 with e2
  injection e2 with e2 e3
  have hs : seek0 st = st := by unfold seek0; rw [h1]; rfl
  rw [hs, writeAll_bad out ws st h1] at e3
  exact ⟨e2.symm, e3.symm⟩

theorem saved_append (big : Bool) (a b : List (RamForest Hash32)) (file f : List Byte) (h : saved big a file = .ok f) :
    saved big (a ++ b) file = saved big b f := by
  unfold saved at h ⊢
  rw [List.foldlM_append, h, ok_bind]

theorem After.trans {big : Bool} {out : ℕ → Option ℕ} {st st1 st2 : Stream} {fs gs : List (RamForest Hash32)}
    (h : After big out st fs st1) (h' : st1.good = true → After big out st1 gs st2) (hb : st1.good = false → st2 = st1) :
    After big out st (fs ++ gs) st2 := by
  obtain ⟨a1, a2, ⟨b1, b2, b3⟩ | ⟨b1, b2, pre, s, post, k, f, b3, b4, b5⟩⟩ := h
  · obtain ⟨c1, c2, c3⟩ := h' b1
    refine ⟨c1, by omega, ?_⟩
    rcases c3 with ⟨d1, d2, d3⟩ | ⟨d1, ⟨i, d2, d3, d4⟩, pre, s, post, k, f, d5, d6, d7⟩
    · refine Or.inl ⟨d1, by rw [saved_append _ _ _ _ _ b2, d2], fun i hi hi' => ?_⟩
      by_cases hc : i < st1.writes
      · exact b3 i hi hc
      · exact d3 i (by omega) hi'
    · exact Or.inr ⟨d1, ⟨i, by omega, d3, d4⟩, fs ++ pre, s, post, k, f, by rw [d5, List.append_assoc],
        by rw [saved_append _ _ _ _ _ b2, d6], d7⟩
  · rw [hb b1]
    exact ⟨a1, a2, Or.inr ⟨b1, b2, pre, s, post ++ gs, k, f, by rw [b3, List.append_assoc]; rfl, b4, b5⟩⟩

section
variable [HashOps Hash32]

theorem call_after (big : Bool) (out : ℕ → Option ℕ) (c : Call) (o o' : RamForest Hash32 × Stream) (b : Bool)
    (fs : List (RamForest Hash32)) (h : call big out o c = .ok (b, fs, o')) :
    (o.2.good = true → o.2.isOpen = true → After big out o.2 fs o'.2) ∧ (o.2.good = false → o'.2 = o.2) := by
  have same : fs = [] → o'.2 = o.2 →
      (o.2.good = true → o.2.isOpen = true → After big out o.2 fs o'.2) ∧ (o.2.good = false → o'.2 = o.2) := by
    intro e1 e2
    rw [e1, e2]
    exact ⟨fun h1 h2 => ⟨h2, le_rfl, Or.inl ⟨h1, rfl, fun i h3 h4 => by omega⟩⟩, fun _ => rfl⟩
  cases c with
  | modify leaves targets =>
    unfold call at h
    obtain ⟨r, -, e2⟩ := bind_eq_ok.1 h
    injection e2 with e2
    simp only [Prod.mk.injEq] at e2
    obtain ⟨-, rfl, rfl⟩ := e2
    exact same rfl rfl
  | undo u =>
    unfold call at h
    obtain ⟨r, -, e2⟩ := bind_eq_ok.1 h
    injection e2 with e2
    simp only [Prod.mk.injEq] at e2
    obtain ⟨-, rfl, rfl⟩ := e2
    exact same rfl rfl
  | commit =>
    unfold call at h
    obtain ⟨⟨b', st⟩, e1, e2⟩ := bind_eq_ok.1 h
    injection e2 with e2
    simp only [Prod.mk.injEq] at e2
    obtain ⟨-, rfl, rfl⟩ := e2
    exact ⟨fun h1 h2 => (commit_after big out _ _ _ _ h1 h2 e1).2, fun h1 => (commit_bad big out _ _ _ _ h1 e1).2⟩

theorem calls_after (big : Bool) (out : ℕ → Option ℕ) : ∀ (cs : List Call) (o o' : RamForest Hash32 × Stream) (bs : List Bool)
    (fs : List (RamForest Hash32)), calls big out cs o = .ok (bs, fs, o') →
    (o.2.good = true → o.2.isOpen = true → After big out o.2 fs o'.2) ∧ (o.2.good = false → o'.2 = o.2) := by
  intro cs
  induction cs with
  | nil =>
    intro o o' bs fs h
    injection h with h
    simp only [Prod.mk.injEq] at h
    obtain ⟨-, rfl, rfl⟩ := h
    exact ⟨fun h1 h2 => ⟨h2, le_rfl, Or.inl ⟨h1, rfl, fun i h3 h4 => by omega⟩⟩, fun _ => rfl⟩
  | cons c cs ih =>
    intro o o' bs fs h
    unfold calls at h
    obtain ⟨⟨b, f1, o1⟩, e1, e2⟩ := bind_eq_ok.1 h
    obtain ⟨⟨bs', f2, o2⟩, e3, e4⟩ := bind_eq_ok.1 e2
    injection e4 with e4
    simp only [Prod.mk.injEq] at e4
    obtain ⟨-, rfl, rfl⟩ := e4
    obtain ⟨a1, a2⟩ := call_after big out c o o1 b f1 e1
    obtain ⟨b1, b2⟩ := ih o1 o2 bs' f2 e3
    refine ⟨fun h1 h2 => (a1 h1 h2).trans (fun hg => b1 hg (a1 h1 h2).1) b2, fun h1 => ?_⟩
    rw [b2 (by rw [a2 h1]; exact h1), a2 h1]

theorem commit_stuck (big : Bool) (out : ℕ → Option ℕ) (st st' : Stream) (s : RamForest Hash32) (b : Bool)
    (h1 : st.good = false ∨ st.isOpen = false) (h : commit big out st s = .ok (b, st')) :
    b = true ∧ st'.good = false ∧ st'.file = st.file := by
  cases hg : st.good with
  | false => obtain ⟨e1, rfl⟩ := commit_bad big out st st' s b hg h; exact ⟨e1, hg, rfl⟩
  | true =>
    have ho : st.isOpen = false := h1.resolve_left (by rw [hg]; simp)
    unfold commit at h
    obtain ⟨ws, e1, e2⟩ := bind_eq_ok.1 h
    injection e2 with e2
    injection e2 with e2 e3
    rw [writeAll_bad out ws _ (by unfold seek0; rw [hg, ho]; rfl)] at e3
    rw [← e3]
    unfold seek0
    rw [hg, ho]
    exact ⟨e2.symm, rfl, rfl⟩

theorem commitWrites_empty (big : Bool) : commitWrites big (mk 0 : RamForest Hash32) = .ok [Codec.writeBE64 big 0] := by
  cases big <;> rfl

theorem calls_stuck (big : Bool) (out : ℕ → Option ℕ) : ∀ (cs : List Call) (o o' : RamForest Hash32 × Stream) (bs : List Bool)
    (fs : List (RamForest Hash32)), o.2.good = false ∨ o.2.isOpen = false → calls big out cs o = .ok (bs, fs, o') →
    o'.2.file = o.2.file ∧ (o'.2.good = false ∨ o'.2.isOpen = false) := by
  intro cs
  induction cs with
  | nil =>
    intro o o' bs fs h0 h
    injection h with h
    simp only [Prod.mk.injEq] at h
    obtain ⟨-, -, rfl⟩ := h
    exact ⟨rfl, h0⟩
  | cons c cs ih =>
    intro o o' bs fs h0 h
    unfold calls at h
    obtain ⟨⟨b, f1, o1⟩, e1, e2⟩ := bind_eq_ok.1 h
    obtain ⟨⟨bs', f2, o2⟩, e3, e4⟩ := bind_eq_ok.1 e2
    injection e4 with e4
    simp only [Prod.mk.injEq] at e4
    obtain ⟨-, -, rfl⟩ := e4
    have key : o1.2.file = o.2.file ∧ (o1.2.good = false ∨ o1.2.isOpen = false) := by
      cases c with
      | modify leaves targets =>
        unfold call at e1
        obtain ⟨r, -, e2⟩ := bind_eq_ok.1 e1
        injection e2 with e2
        simp only [Prod.mk.injEq] at e2
        obtain ⟨-, -, rfl⟩ := e2
        exact ⟨rfl, h0⟩
      | undo u =>
        unfold call at e1
        obtain ⟨r, -, e2⟩ := bind_eq_ok.1 e1
        injection e2 with e2
        simp only [Prod.mk.injEq] at e2
        obtain ⟨-, -, rfl⟩ := e2
        exact ⟨rfl, h0⟩
      | commit =>
        unfold call at e1
        obtain ⟨⟨b', st⟩, e5, e2⟩ := bind_eq_ok.1 e1
        injection e2 with e2
        simp only [Prod.mk.injEq] at e2
        obtain ⟨-, -, rfl⟩ := e2
        obtain ⟨-, k1, k2⟩ := commit_stuck big out _ _ _ _ h0 e5
        exact ⟨k2, Or.inl k1⟩
    obtain ⟨k1, k2⟩ := ih o1 o2 bs' f2 key.2 e3
    exact ⟨by rw [k1, key.1], k2⟩

end

end Stream

open Stream

section Props
variable [HashOps Hash32]

/-- C75, the answer: every `Commit` that comes back says true, whatever happened to the file. The answers of a sequence of calls. -/
theorem C75_answer (big : Bool) (out : ℕ → Option ℕ) (cs : List Call) (o o' : RamForest Hash32 × Stream) (bs : List Bool)
    (fs : List (RamForest Hash32)) (h : calls big out cs o = .ok (bs, fs, o')) :
    bs.length = cs.length ∧ ∀ i : ℕ, cs[i]? = some Call.commit → bs[i]? = some true := by
  induction cs generalizing o bs fs with
  | nil =>
    injection h with h
    simp only [Prod.mk.injEq] at h
    obtain ⟨rfl, -, -⟩ := h
    exact ⟨rfl, fun i hi => by simp at hi⟩
  | cons c cs ih =>
    unfold calls at h
    obtain ⟨⟨b, f1, o1⟩, e1, e2⟩ := bind_eq_ok.1 h
    obtain ⟨⟨bs', f2, o2⟩, e3, e4⟩ := bind_eq_ok.1 e2
    injection e4 with e4
    simp only [Prod.mk.injEq] at e4
    obtain ⟨rfl, -, rfl⟩ := e4
    obtain ⟨a1, a2⟩ := ih o1 bs' f2 e3
    refine ⟨by rw [List.length_cons, List.length_cons, a1], fun i hi => ?_⟩
    cases i with
    | zero =>
      simp only [List.getElem?_cons_zero, Option.some.injEq] at hi ⊢
      subst hi
      unfold call at e1
      obtain ⟨⟨b', st⟩, e5, e2⟩ := bind_eq_ok.1 e1
      injection e2 with e2
      simp only [Prod.mk.injEq] at e2
      obtain ⟨rfl, -, -⟩ := e2
      unfold Stream.commit at e5
      obtain ⟨ws, -, e6⟩ := bind_eq_ok.1 e5
      injection e6 with e6
      injection e6 with e6
      exact e6.symm
    | succ i =>
      simp only [List.getElem?_cons_succ] at hi ⊢
      exact a2 i hi

/-- C75, the file after any calls on an object whose file is open, whichever writes fail. `fs` are the forests that the `Commit`s
among the calls were to save.

* If no write failed, the stream is good and the file is what saving these forests one after the other gives.
* Otherwise the stream is not good, and the file is as if the process had stopped in the middle of saving one of them: what later
  `Commit`s were to save is not in the file. -/
theorem C75_exact (big : Bool) (out : ℕ → Option ℕ) (cs : List Call) (o o' : RamForest Hash32 × Stream) (bs : List Bool)
    (fs : List (RamForest Hash32)) (ho : o.2.isOpen = true) (hg : o.2.good = true) (h : calls big out cs o = .ok (bs, fs, o')) :
    (o'.2.good = true ↔ ∀ i, o.2.writes ≤ i → i < o'.2.writes → out i = none) ∧
    (o'.2.good = true → fs.foldlM (fun f s => File.commit big s f) o.2.file = .ok o'.2.file) ∧
    (o'.2.good = false → ∃ pre s post k f, fs = pre ++ s :: post ∧
      pre.foldlM (fun f s => File.commit big s f) o.2.file = .ok f ∧ crashFile big s f k = .ok o'.2.file) := by
  obtain ⟨-, -, a3⟩ := (calls_after big out cs o o' bs fs h).1 hg ho
  rcases a3 with ⟨b1, b2, b3⟩ | ⟨b1, ⟨i, b2, b3, b4⟩, b5⟩
  · exact ⟨⟨fun _ => b3, fun _ => b1⟩, fun _ => b2, fun hx => by rw [b1] at hx; cases hx⟩
  · refine ⟨⟨fun hx => ?_, fun hx => absurd (hx i b2 b3) b4⟩, fun hx => ?_, fun _ => b5⟩
    · rw [b1] at hx; cases hx
    · rw [b1] at hx; cases hx

/-- C75, the destructor: it saves the forest like `Commit` if no error occurred before. -/
theorem C75_destroy (big : Bool) (out : ℕ → Option ℕ) (o : RamForest Hash32 × Stream) (st : Stream)
    (h : destroy big out o = .ok st) :
    (o.2.good = false ∨ o.2.isOpen = false → st.file = o.2.file) ∧
    (o.2.good = true → o.2.isOpen = true → st.isOpen = false ∧
      ((st.good = true ∧ File.commit big o.1 o.2.file = .ok st.file) ∨
       (st.good = false ∧ ∃ k, crashFile big o.1 o.2.file k = .ok st.file))) := by
  unfold destroy at h
  cases hg : o.2.good with
  | false =>
    rw [if_neg (by rw [hg]; simp)] at h
    injection h with h
    rw [h]
    exact ⟨fun _ => rfl, fun hx => by cases hx⟩
  | true =>
    rw [if_pos hg] at h
    obtain ⟨⟨b, st1⟩, e1, e2⟩ := bind_eq_ok.1 h
    injection e2 with e2
    subst e2
    refine ⟨fun hx => ?_, fun _ ho => ⟨rfl, ?_⟩⟩
    · exact (commit_stuck big out _ _ _ _ (hg ▸ hx) e1).2.2
    · obtain ⟨-, -, -, ⟨b1, b2, -⟩ | ⟨b1, -, pre, s, post, k, f, b3, b4, b5⟩⟩ := commit_after big out _ _ _ _ hg ho e1
      · refine Or.inl ⟨b1, ?_⟩
        unfold saved at b2
        rw [List.foldlM_cons] at b2
        obtain ⟨f, c1, c2⟩ := bind_eq_ok.1 b2
        injection c2 with c2
        rw [c1, c2]
      · refine Or.inr ⟨b1, k, ?_⟩
        cases pre with
        | nil =>
          injection b3 with b3
          subst b3
          injection b4 with b4
          subst b4
          exact b5
        | cons a pre =>
          have := congrArg List.length b3
          simp at this

/-- C75, no way back: without an open file, or once an error has occurred, no call and not the destructor changes the file. -/
theorem C75_stuck (big : Bool) (out : ℕ → Option ℕ) (cs : List Call) (o o' : RamForest Hash32 × Stream) (bs : List Bool)
    (fs : List (RamForest Hash32)) (hs : o.2.good = false ∨ o.2.isOpen = false) (h : calls big out cs o = .ok (bs, fs, o')) :
    o'.2.file = o.2.file ∧ ∀ st, destroy big out o' = .ok st → st.file = o.2.file := by
  obtain ⟨a1, a2⟩ := calls_stuck big out cs o o' bs fs hs h
  exact ⟨a1, fun st hst => by rw [(C75_destroy big out o' st hst).1 a2, a1]⟩

/-- C75, what holds: if the stream is good after `Commit`, the forest has been saved, and opening the file gives a forest with the
same leaves and answers. Missing: nothing tells the caller, since `Commit` returns true in any case and the stream is private; see
`C75_false`. -/
theorem C75_partial (big big' : Bool) (out : ℕ → Option ℕ) {s : RamForest Hash32} {rs : List (UndoBatch Hash32 × RamForest Hash32)}
    (hr : Run s rs) {L : List Hash32} (hL : Represents s L) (hn : L.length < 2 ^ 31) (st : Stream) :
    ∃ st', Stream.commit big out st s = .ok (true, st') ∧
      (st'.good = true ↔ st.good = true ∧ st.isOpen = true ∧ ∀ i, st.writes ≤ i → i < st'.writes → out i = none) ∧
      (st'.good = true → ∃ bytes s', ForestFile L bytes ∧ bytes <+: st'.file ∧ restore big' st'.file = .ok s' ∧
        Represents s' L ∧ Same s s') := by
  obtain ⟨bytes, s', c1, c2, c3, c4, c5⟩ := C31_file hr hL hn st.file big big'
  obtain ⟨ws, d1, d2⟩ := bind_eq_ok.1 c2
  have hc : Stream.commit big out st s = .ok (true, ws.foldl (write out) (seek0 st)) := by
    unfold Stream.commit
    rw [d1, ok_bind]
    rfl
  refine ⟨_, hc, ?_, fun hx => ?_⟩
  · constructor
    · intro hx
      have h1 : st.good = true ∧ st.isOpen = true := by
        by_contra hc'
        have : st.good = false ∨ st.isOpen = false := by
          revert hc'
          cases st.good <;> cases st.isOpen <;> simp
        rw [(commit_stuck big out _ _ _ _ this hc).2.1] at hx
        cases hx
      refine ⟨h1.1, h1.2, ?_⟩
      obtain ⟨-, -, -, ⟨-, -, b3⟩ | ⟨b1, -⟩⟩ := commit_after big out _ _ _ _ h1.1 h1.2 hc
      · exact b3
      · rw [b1] at hx; cases hx
    · rintro ⟨h1, h2, h3⟩
      obtain ⟨-, -, -, ⟨b1, -⟩ | ⟨-, ⟨i, b2, b3, b4⟩, -⟩⟩ := commit_after big out _ _ _ _ h1 h2 hc
      · exact b1
      · exact absurd (h3 i b2 b3) b4
  · have h1 : st.good = true ∧ st.isOpen = true := by
      by_contra hc'
      have : st.good = false ∨ st.isOpen = false := by
        revert hc'
        cases st.good <;> cases st.isOpen <;> simp
      rw [(commit_stuck big out _ _ _ _ this hc).2.1] at hx
      cases hx
    obtain ⟨-, -, -, ⟨-, b2, -⟩ | ⟨b1, -⟩⟩ := commit_after big out _ _ _ _ h1.1 h1.2 hc
    · have b2' : File.commit big s st.file = .ok (ws.foldl (write out) (seek0 st)).file := by
        unfold saved at b2
        rw [List.foldlM_cons] at b2
        obtain ⟨f, g1, g2⟩ := bind_eq_ok.1 b2
        injection g2 with g2
        rw [g1, g2]
      rw [c2] at b2'
      injection b2' with b2'
      rw [← b2']
      exact ⟨bytes, s', c1, List.prefix_append _ _, c3, c4, c5⟩
    · rw [b1] at hx; cases hx

/-- C75, opening a file whose contents are the encoding of `L`, perhaps followed by other bytes.

* If the file can be opened, the object has these leaves and its stream is good.
* If it cannot be opened for reading and writing, the object is an empty forest: no error is reported, and nothing that is done with
  the object is saved.
* If opening it fails at first and then succeeds with truncation, the object is an empty forest, and the leaves are lost. -/
theorem C75_open (big big' : Bool) (out : ℕ → Option ℕ) (L : List Hash32) (hnd : L.Nodup) (hlen : L.length < 2 ^ 31)
    (bytes post : List Byte) (hf : ForestFile L bytes) :
    (∃ s st, openForest big out ⟨true, true, false⟩ (bytes ++ post) = .ok (s, st) ∧ Represents s L ∧ st.isOpen = true ∧
      st.good = true ∧ st.file = bytes ++ post) ∧
    (∃ s st, openForest big out ⟨false, false, false⟩ (bytes ++ post) = .ok (s, st) ∧ Represents s [] ∧ st.good = false ∧
      st.file = bytes ++ post) ∧
    (∃ s st, openForest big out ⟨false, false, true⟩ (bytes ++ post) = .ok (s, st) ∧ Represents s [] ∧
      (st.good = true ↔ out 0 = none) ∧
      (st.good = true → ∃ s', restore big' st.file = .ok s' ∧ Represents s' [])) := by
  have h0 : Represents (mk 0 : RamForest Hash32) [] := by
    have := (mk_inv (H := Hash32)).represents (by omega)
    simpa using this
  refine ⟨?_, ?_, ?_⟩
  · obtain ⟨s, a1, -, a2⟩ := C57_open big L hnd hlen bytes post hf
    refine ⟨s, Stream.opened (bytes ++ post), ?_, a2, rfl, rfl, rfl⟩
    unfold openForest
    rw [if_pos rfl, if_pos rfl, a1]
    rfl
  · refine ⟨mk 0, Stream.failed (bytes ++ post), ?_, h0, rfl, rfl⟩
    unfold openForest
    rw [if_neg (by simp)]
    obtain ⟨st', a1, -⟩ := C75_partial big big' out Run.empty h0 (by simp) (Stream.failed (bytes ++ post))
    obtain ⟨-, rfl⟩ := commit_bad big out _ _ _ _ rfl a1
    rw [if_neg (by simp), a1]
    rfl
  · obtain ⟨st', a1, a2, a3⟩ := C75_partial big big' out Run.empty h0 (by simp) (Stream.opened [])
    refine ⟨mk 0, st', ?_, h0, ?_, fun hx => ?_⟩
    · unfold openForest
      rw [if_neg (by simp), if_pos rfl, a1]
      rfl
    · unfold Stream.commit at a1
      rw [commitWrites_empty, ok_bind] at a1
      injection a1 with a1
      injection a1 with a1 a4
      rw [← a4]
      show (write out (Stream.opened []) _).good = true ↔ _
      unfold write
      cases ho : out 0 with
      | none => simp [Stream.opened, ho]
      | some k => simp [Stream.opened, ho]
    · obtain ⟨b, s', -, -, b3, b4, -⟩ := a3 hx
      exact ⟨s', b3, b4⟩

end Props

section Examples

attribute [local instance] toyOps32

/-- Modify adding the leaves `bs`. -/
def addBytes (bs : List Byte) : Call := .modify (bs.map fun b => (toyHash b, false)) []

/-- The life of an object on a file: it is opened, used and destroyed. What the calls return, the number of leaves the object had
when it was opened, and the leaves that the file shows when it is opened again. -/
def life (out : ℕ → Option ℕ) (o : Opens) (file : List Byte) (cs : List Call) : Res (List Bool × ℕ × Res (List Hash32)) := do
  let (s, st) ← openForest false out o file
  let (bs, _, o') ← calls false out cs (s, st)
  let st' ← destroy false out o'
  return (bs, s.numLeaves, fileLeaves st'.file)

/-- A file with the leaves 1 and 2. -/
def twoFile : Res (List Byte) := do
  let (_, _, s) ← modify (mk 0) ([1, 2].map fun b => (toyHash b, false)) []
  File.commit false s []

/-- A non-trivial case of C75: no write fails, a new file and one that had two leaves. -/
example : life (fun _ => none) ⟨false, false, true⟩ [] [addBytes [1, 2], .commit, addBytes [3]]
      = .ok ([true, true, true], 0, .ok ([1, 2, 3].map toyHash)) ∧
    (do life (fun _ => none) ⟨true, true, false⟩ (← twoFile) [addBytes [3], .commit])
      = .ok ([true, true], 2, .ok ([1, 2, 3].map toyHash)) := by decide +kernel

/-- C75 fails, while `Commit` returns true:

* a forest that was constructed without a file saves nothing;
* if the disk is full after the file was created, the file stays that of an empty forest;
* after a write that failed once later `Commit`s save nothing, and the file cannot be opened again;
* a file that may only be read opens as an empty forest, and leaves that are added are not saved;
* if opening the file fails once, it is truncated and its leaves are lost. -/
theorem C75_false :
    (do
      let (_, _, s) ← modify (mk 0) [(toyHash 1, false)] []
      let (bs, _, o) ← calls false (fun _ => none) [.commit] (s, Stream.closed [])
      return (bs, o.2.file)) = .ok ([true], []) ∧
    life (fun i => if i = 0 then none else some 0) ⟨false, false, true⟩ [] [addBytes [1, 2], .commit]
      = .ok ([true, true], 0, .ok []) ∧
    life (fun i => if i = 2 then some 7 else none) ⟨false, false, true⟩ [] [addBytes [1], .commit, addBytes [2], .commit]
      = .ok ([true, true, true, true], 0, .error .ub) ∧
    (do life (fun _ => none) ⟨false, false, false⟩ (← twoFile) [addBytes [3], .commit])
      = .ok ([true, true], 0, .ok ([1, 2].map toyHash)) ∧
    (do life (fun _ => none) ⟨false, false, true⟩ (← twoFile) [addBytes [3], .commit])
      = .ok ([true, true], 0, .ok ([3].map toyHash)) := by decide +kernel

end Examples

end Utreexo
