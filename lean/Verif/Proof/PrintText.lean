import Mathlib.Data.List.Basic
import Mathlib.Tactic.IntervalCases
import Verif.Model.Print
import Verif.Spec.Print
import Verif.Proof.Pos

/-!
# Lemmas about the printed texts
-/

set_option linter.unusedSectionVars false

namespace Utreexo
open Spec

namespace Print

theorem sep_inj {c : Char} : ∀ {l1 l2 r1 r2 : Text}, c ∉ l1 → c ∉ l2 → l1 ++ c :: r1 = l2 ++ c :: r2 → l1 = l2 ∧ r1 = r2 := by
  intro l1
  induction l1 with
  | nil =>
    intro l2 r1 r2 _ h2 h
    cases l2 with
    | nil => exact ⟨rfl, by simpa using h⟩
    | cons a l2 => simp at h h2; exact absurd h.1 h2.1
  | cons a l1 ih =>
    intro l2 r1 r2 h1 h2 h
    cases l2 with
    | nil => simp at h h1; exact absurd h.1.symm h1.1
    | cons b l2 =>
      simp only [List.cons_append, List.cons.injEq] at h
      obtain ⟨rfl, k1⟩ := h
      obtain ⟨rfl, k2⟩ := ih (fun hc => h1 (by simp [hc])) (fun hc => h2 (by simp [hc])) k1
      exact ⟨rfl, k2⟩

/-! ## Numbers -/

theorem dec_eq (n : ℕ) : dec n = number n := by
  unfold dec number
  rw [Nat.toString_eq_repr, Nat.toList_repr]

theorem dec_digit {n : ℕ} {c : Char} (h : c ∈ dec n) : c.isDigit = true := Nat.isDigit_of_mem_toDigits (by omega) (by omega) h

theorem dec_inj {a b : ℕ} (h : dec a = dec b) : a = b := by
  have := congrArg (fun l => Nat.ofDigitChars 10 l 0) h
  simpa [dec, Nat.ofDigitChars_ten_toDigits] using this

/-- A number followed by something that is not a digit can be read back. -/
theorem dec_sep {a b : ℕ} {c : Char} (hc : c.isDigit = false) {r q : Text} (h : dec a ++ c :: r = dec b ++ c :: q) :
    a = b ∧ r = q := by
  have hn : ∀ n, c ∉ dec n := fun n hm => by rw [dec_digit hm] at hc; exact absurd hc (by simp)
  obtain ⟨h1, h2⟩ := sep_inj (hn a) (hn b) h
  exact ⟨dec_inj h1, h2⟩

theorem dec_cons (n : ℕ) : ∃ c l, dec n = c :: l ∧ c.isDigit = true := by
  cases e : dec n with
  | nil => exact absurd e Nat.toDigits_ne_nil
  | cons c l => exact ⟨c, l, rfl, dec_digit (n := n) (by rw [e]; simp)⟩

/-! ## Hexadecimal -/

theorem hexmap_digit : ∀ v : ℕ, v < 16 → hexDigit (hexmap.getD v '0') = some v := by decide

theorem hexDigit_ne {c : Char} {x : ℕ} (h : hexDigit c = some x) : c ≠ '\n' := by
  rintro rfl
  revert h; simp [hexDigit]

theorem hexStr_length : ∀ b : List Byte, (hexStr b).length = 2 * b.length := by
  intro b
  induction b with
  | nil => rfl
  | cons v b ih => simp only [hexStr, List.length_cons, ih]; omega

theorem hexStr_isHex : ∀ b : List Byte, IsHex b (hexStr b) := by
  intro b
  refine ⟨hexStr_length b, ?_⟩
  induction b with
  | nil => intro i v h; simp at h
  | cons w b ih =>
    intro i v h
    cases i with
    | zero =>
      obtain rfl : w = v := by simpa using h
      have hw : w.toNat < 256 := w.isLt
      have h1 : w.toNat >>> 4 = w.toNat / 16 := Nat.shiftRight_eq_div_pow _ _
      have h2 : w.toNat &&& 15 = w.toNat % 16 := Nat.and_two_pow_sub_one_eq_mod _ 4
      exact ⟨_, _, w.toNat / 16, w.toNat % 16, rfl, rfl, by rw [h1]; exact hexmap_digit _ (by omega),
        by rw [h2]; exact hexmap_digit _ (by omega), by omega⟩
    | succ i =>
      obtain ⟨c, d, x, y, h1, h2, h3⟩ := ih i v (by simpa using h)
      exact ⟨c, d, x, y, h1, h2, h3⟩

theorem hexDigit_inj {c d : Char} {x : ℕ} (h1 : hexDigit c = some x) (h2 : hexDigit d = some x) : c = d := by
  have key : ∀ (c : Char) (x : ℕ), hexDigit c = some x → (x < 10 ∧ c.toNat = x + 48) ∨ (10 ≤ x ∧ x < 16 ∧ c.toNat = x + 87) := by
    intro c x h
    unfold hexDigit at h
    have e : ∀ a b : Char, a ≤ b ↔ a.toNat ≤ b.toNat := fun a b => Iff.rfl
    simp only [e] at h
    have e0 : '0'.toNat = 48 := rfl
    have e1 : '9'.toNat = 57 := rfl
    have e2 : 'a'.toNat = 97 := rfl
    have e3 : 'f'.toNat = 102 := rfl
    rw [e0, e1, e2, e3] at h
    split at h
    · left
      rename_i hc
      simp only [Option.some.injEq] at h
      omega
    · split at h
      · right
        rename_i hc
        simp only [Option.some.injEq] at h
        omega
      · simp at h
  apply Char.toNat_inj.1
  rcases key c x h1 with a | a <;> rcases key d x h2 with b | b <;> omega

theorem hexDigit_lt {c : Char} {x : ℕ} (h : hexDigit c = some x) : x < 16 := by
  unfold hexDigit at h
  have e : ∀ a b : Char, a ≤ b ↔ a.toNat ≤ b.toNat := fun a b => Iff.rfl
  simp only [e] at h
  have e0 : '0'.toNat = 48 := rfl
  have e1 : '9'.toNat = 57 := rfl
  have e2 : 'a'.toNat = 97 := rfl
  have e3 : 'f'.toNat = 102 := rfl
  rw [e0, e1, e2, e3] at h
  split at h
  · rename_i hc
    simp only [Option.some.injEq] at h
    omega
  · split at h
    · rename_i hc
      simp only [Option.some.injEq] at h
      omega
    · simp at h

/-- There is one such text for each list of bytes, and it determines the bytes. -/
theorem isHex_iff {b : List Byte} {t : Text} (a : List Byte) (h : IsHex a t) : IsHex b t ↔ b = a := by
  constructor
  · intro hb
    apply List.ext_getElem?
    intro i
    have hl : b.length = a.length := by have := h.1; have := hb.1; omega
    by_cases hi : i < a.length
    · obtain ⟨c, d, x, y, h1, h2, h3, h4, h5⟩ := h.2 i _ (List.getElem?_eq_getElem hi)
      obtain ⟨c', d', x', y', g1, g2, g3, g4, g5⟩ := hb.2 i _ (List.getElem?_eq_getElem (by omega : i < b.length))
      rw [h1] at g1
      rw [h2] at g2
      obtain rfl := Option.some.inj g1
      obtain rfl := Option.some.inj g2
      rw [h3] at g3
      rw [h4] at g4
      obtain rfl := Option.some.inj g3
      obtain rfl := Option.some.inj g4
      rw [List.getElem?_eq_getElem hi, List.getElem?_eq_getElem (by omega : i < b.length)]
      congr 1
      exact BitVec.eq_of_toNat_eq (g5.trans h5.symm)
    · rw [List.getElem?_eq_none (by omega), List.getElem?_eq_none (by omega)]
  · rintro rfl; exact h

theorem isHex_unique {b : List Byte} {t u : Text} (h : IsHex b t) (h' : IsHex b u) : t = u := by
  apply List.ext_getElem?
  intro j
  by_cases hj : j < 2 * b.length
  · have hi : j / 2 < b.length := by omega
    obtain ⟨c, d, x, y, h1, h2, h3, h4, h5⟩ := h.2 _ _ (List.getElem?_eq_getElem hi)
    obtain ⟨c', d', x', y', g1, g2, g3, g4, g5⟩ := h'.2 _ _ (List.getElem?_eq_getElem hi)
    have a1 := hexDigit_lt h3
    have a2 := hexDigit_lt h4
    have a3 := hexDigit_lt g3
    have a4 := hexDigit_lt g4
    obtain rfl : x = x' := by omega
    obtain rfl : y = y' := by omega
    obtain rfl := hexDigit_inj h3 g3
    obtain rfl := hexDigit_inj h4 g4
    rcases Nat.mod_two_eq_zero_or_one j with e | e
    · have e' : j = 2 * (j / 2) := by omega
      rw [e', h1, g1]
    · obtain e' : j = 2 * (j / 2) + 1 := by omega
      rw [e', h2, g2]
  · have := h.1
    have := h'.1
    rw [List.getElem?_eq_none (by omega), List.getElem?_eq_none (by omega)]

theorem hexStr_inj {a b : List Byte} (h : hexStr a = hexStr b) : a = b :=
  (isHex_iff (t := hexStr b) b (hexStr_isHex b)).1 (h ▸ hexStr_isHex a)

theorem hash_len (h : Hash32) : (hexStr h.1).length = 64 := by rw [hexStr_length, h.2]

theorem hash_sep {g h : Hash32} {r q : Text} (e : hexStr g.1 ++ r = hexStr h.1 ++ q) : g = h ∧ r = q := by
  obtain ⟨h1, h2⟩ := List.append_inj e (by rw [hash_len, hash_len])
  exact ⟨Subtype.ext (hexStr_inj h1), h2⟩

theorem hash_cons (h : Hash32) : ∃ c l, hexStr h.1 = c :: l ∧ c ≠ '\n' := by
  obtain ⟨_, h2⟩ := hexStr_isHex h.1
  obtain ⟨c, d, x, y, h1, -, h3, -⟩ := h2 0 _ (List.getElem?_eq_getElem (by rw [h.2]; omega))
  cases e : hexStr h.1 with
  | nil => rw [e] at h1; simp at h1
  | cons a l =>
    rw [e] at h1
    obtain rfl : a = c := by simpa using h1
    exact ⟨a, l, rfl, hexDigit_ne h3⟩

/-! ## Lists -/

theorem printVector_eq (l : List ℕ) : printVector l = each " " (l.map number) ++ ['\n'] := by
  induction l with
  | nil => rfl
  | cons i l ih =>
    rw [printVector, ih, dec_eq]
    simp [each]

theorem printHashes_eq (l : List Hash32) : printHashes l = each ", " (l.map fun h => hexStr h.1) ++ ['\n'] := by
  induction l with
  | nil => rfl
  | cons i l ih =>
    rw [printHashes, ih]
    simp [each]

theorem printVector_inj : ∀ (a b : List ℕ) (r q : Text), printVector a ++ r = printVector b ++ q → a = b ∧ r = q := by
  intro a
  induction a with
  | nil =>
    intro b r q h
    cases b with
    | nil => exact ⟨rfl, by simpa [printVector] using h⟩
    | cons j b =>
      obtain ⟨c, l, e, hc⟩ := dec_cons j
      simp only [printVector, e, List.cons_append, List.nil_append, List.cons.injEq] at h
      rw [← h.1] at hc
      exact absurd hc (by decide)
  | cons i a ih =>
    intro b r q h
    cases b with
    | nil =>
      obtain ⟨c, l, e, hc⟩ := dec_cons i
      simp only [printVector, e, List.cons_append, List.nil_append, List.cons.injEq] at h
      rw [h.1] at hc
      exact absurd hc (by decide)
    | cons j b =>
      simp only [printVector, List.append_assoc, List.cons_append, List.nil_append] at h
      obtain ⟨rfl, k1⟩ := dec_sep (by decide) h
      obtain ⟨rfl, k2⟩ := ih b r q k1
      exact ⟨rfl, k2⟩

theorem printHashes_inj : ∀ (a b : List Hash32) (r q : Text), printHashes a ++ r = printHashes b ++ q → a = b ∧ r = q := by
  intro a
  induction a with
  | nil =>
    intro b r q h
    cases b with
    | nil => exact ⟨rfl, by simpa [printHashes] using h⟩
    | cons j b =>
      obtain ⟨c, l, e, hc⟩ := hash_cons j
      simp only [printHashes, e, List.cons_append, List.nil_append, List.cons.injEq] at h
      exact absurd h.1.symm hc
  | cons i a ih =>
    intro b r q h
    cases b with
    | nil =>
      obtain ⟨c, l, e, hc⟩ := hash_cons i
      simp only [printHashes, e, List.cons_append, List.nil_append, List.cons.injEq] at h
      exact absurd h.1 hc
    | cons j b =>
      simp only [printHashes, List.append_assoc, List.cons_append, List.nil_append] at h
      obtain ⟨rfl, k1⟩ := hash_sep h
      simp only [List.cons.injEq, true_and] at k1
      obtain ⟨rfl, k2⟩ := ih b r q k1
      exact ⟨rfl, k2⟩

theorem printEntries_eq (l : List (Hash32 × ℕ)) :
    printEntries l = each "\n" (l.map fun e => hexStr e.1.1 ++ " -> ".toList ++ number e.2) := by
  induction l with
  | nil => rfl
  | cons e l ih =>
    obtain ⟨h, p⟩ := e
    rw [printEntries, ih, dec_eq]
    simp [each]

theorem printEntries_inj : ∀ (a b : List (Hash32 × ℕ)), printEntries a = printEntries b → a = b := by
  intro a
  induction a with
  | nil =>
    intro b h
    cases b with
    | nil => rfl
    | cons j b =>
      obtain ⟨c, l, e, hc⟩ := hash_cons j.1
      simp [printEntries, e] at h
  | cons i a ih =>
    intro b h
    cases b with
    | nil =>
      obtain ⟨c, l, e, hc⟩ := hash_cons i.1
      simp [printEntries, e] at h
    | cons j b =>
      obtain ⟨g, p⟩ := i
      obtain ⟨h', p'⟩ := j
      simp only [printEntries, List.append_assoc, List.cons_append, List.nil_append] at h
      obtain ⟨rfl, k1⟩ := hash_sep h
      simp only [List.cons.injEq, true_and] at k1
      obtain ⟨rfl, k2⟩ := dec_sep (by decide) k1
      rw [ih b k2]

/-! ## Roots -/

variable {H N X : Type}

theorem rootsText_cons (p : ℕ) (ps : List ℕ) (x : Text) (xs : List Text) :
    rootsText (p :: ps) (x :: xs) = ['r', 'o', 'o', 't', ':', ' '] ++ dec p ++ [':'] ++ x ++ ['\n'] ++ rootsText ps xs := by
  rw [dec_eq]
  simp [rootsText, each]

theorem printRootsLoop_eq (vt : VT H N X) (hex : H → Text) (s : Acc H N X) : ∀ (l : List N) (hs : List H),
    l.mapM (vt.nodeHash s) = .ok hs → printRootsLoop vt hex s l = .ok (rootsText (l.map vt.nodePos) (hs.map hex)) := by
  intro l
  induction l with
  | nil =>
    intro hs h
    obtain rfl : hs = [] := by simpa [pure_ok] using h.symm
    rfl
  | cons a l ih =>
    intro hs h
    rw [List.mapM_cons] at h
    obtain ⟨x, e1, h⟩ := bind_eq_ok.1 h
    obtain ⟨xs, e2, h⟩ := bind_eq_ok.1 h
    obtain rfl := Except.ok.inj h
    rw [printRootsLoop, e1, ok_bind, ih xs e2, ok_bind, List.map_cons, List.map_cons, rootsText_cons]
    rfl

theorem printRoots_eq {vt : VT H N X} (hex : H → Text) {s : Acc H N X} {hs : List H} (h : Acc.rootHashes vt s = .ok hs) :
    printRoots vt hex s = .ok (rootsText (s.roots.map vt.nodePos) (hs.map hex)) := printRootsLoop_eq vt hex s _ _ h

theorem mapM_length {A B : Type} {f : A → Res B} : ∀ {l : List A} {hs : List B}, l.mapM f = .ok hs → hs.length = l.length := by
  intro l
  induction l with
  | nil =>
    intro hs h
    obtain rfl : hs = [] := by simpa [pure_ok] using h.symm
    rfl
  | cons a l ih =>
    intro hs h
    rw [List.mapM_cons] at h
    obtain ⟨x, -, h⟩ := bind_eq_ok.1 h
    obtain ⟨xs, e, h⟩ := bind_eq_ok.1 h
    obtain rfl := Except.ok.inj h
    rw [List.length_cons, List.length_cons, ih e]

/-- With the same hashes the text determines the numbers. -/
theorem rootsText_inj : ∀ (xs : List Text) (ps qs : List ℕ), ps.length = xs.length → qs.length = xs.length →
    rootsText ps xs = rootsText qs xs → ps = qs := by
  intro xs
  induction xs with
  | nil =>
    intro ps qs h1 h2 _
    rw [List.length_nil, List.length_eq_zero_iff] at h1 h2
    rw [h1, h2]
  | cons x xs ih =>
    intro ps qs h1 h2 h
    obtain ⟨p, ps, rfl⟩ := List.exists_cons_of_length_eq_add_one h1
    obtain ⟨q, qs, rfl⟩ := List.exists_cons_of_length_eq_add_one h2
    rw [rootsText_cons, rootsText_cons] at h
    simp only [List.append_assoc, List.cons_append, List.nil_append, List.cons.injEq, true_and] at h
    obtain ⟨rfl, k1⟩ := dec_sep (by decide) h
    have k2 := List.append_cancel_left k1
    simp only [List.cons.injEq, true_and] at k2
    rw [ih ps qs (by simpa using h1) (by simpa using h2) k2]

/-- The text determines the numbers and the hashes. -/
theorem rootsText_hash_inj : ∀ (ps qs : List ℕ) (xs ys : List Hash32), ps.length = xs.length → qs.length = ys.length →
    rootsText ps (xs.map fun h => hexStr h.1) = rootsText qs (ys.map fun h => hexStr h.1) → ps = qs ∧ xs = ys := by
  intro ps
  induction ps with
  | nil =>
    intro qs xs ys h1 h2 h
    obtain rfl : xs = [] := List.length_eq_zero_iff.1 h1.symm
    cases qs with
    | nil => exact ⟨rfl, (List.length_eq_zero_iff.1 h2.symm).symm⟩
    | cons q qs =>
      obtain ⟨y, ys, rfl⟩ := List.exists_cons_of_length_eq_add_one h2.symm
      rw [List.map_cons, rootsText_cons] at h
      simp [rootsText, each] at h
  | cons p ps ih =>
    intro qs xs ys h1 h2 h
    obtain ⟨x, xs, rfl⟩ := List.exists_cons_of_length_eq_add_one h1.symm
    cases qs with
    | nil =>
      obtain rfl : ys = [] := List.length_eq_zero_iff.1 h2.symm
      rw [List.map_cons, rootsText_cons] at h
      simp [rootsText, each] at h
    | cons q qs =>
      obtain ⟨y, ys, rfl⟩ := List.exists_cons_of_length_eq_add_one h2.symm
      rw [List.map_cons, List.map_cons, rootsText_cons, rootsText_cons] at h
      simp only [List.append_assoc, List.cons_append, List.nil_append, List.cons.injEq, true_and] at h
      obtain ⟨rfl, k1⟩ := dec_sep (by decide) h
      obtain ⟨rfl, k2⟩ := hash_sep k1
      simp only [List.cons.injEq, true_and] at k2
      obtain ⟨rfl, rfl⟩ := ih qs xs ys (by simpa using h1) (by simpa using h2) k2
      exact ⟨rfl, rfl⟩

end Print
end Utreexo
