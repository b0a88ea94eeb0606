import Mathlib.Data.List.Lex
import Mathlib.Order.Lex
import Verif.Model.Args
import Verif.Spec.Options

/-!
# C80: the options of the benchmark program
-/

namespace Utreexo
open Spec

namespace Args

/-! ## The order of strings and the map -/

theorem less_iff : ∀ a b : List Char, less a b = true ↔ a.map Char.toNat < b.map Char.toNat
  | _, [] => by simp [less]
  | [], _ :: _ => by simp [less]
  | a :: as, b :: bs => by
    rw [less, List.map_cons, List.map_cons, List.cons_lt_cons_iff, ← less_iff as bs]
    split
    · simp_all
    · split
      · constructor
        · simp
        · rintro (h | ⟨h, -⟩) <;> omega
      · constructor
        · intro h; exact .inr ⟨by omega, h⟩
        · rintro (h | ⟨-, h⟩)
          · omega
          · exact h

theorem codes_inj : Function.Injective (List.map Char.toNat) := by
  apply List.map_injective_iff.2
  intro a b h
  exact Char.toNat_inj.1 h

theorem less_irrefl (a : List Char) : less a a = false := by
  cases h : less a a with
  | false => rfl
  | true => exact absurd ((less_iff a a).1 h) (lt_irrefl _)

theorem less_trans {a b c : List Char} (h1 : less a b = true) (h2 : less b c = true) : less a c = true :=
  (less_iff a c).2 (lt_trans ((less_iff a b).1 h1) ((less_iff b c).1 h2))

theorem less_total {a b : List Char} (h1 : ¬ less a b = true) (h2 : ¬ less b a = true) : a = b := by
  rw [less_iff] at h1 h2
  exact codes_inj (le_antisymm (not_lt.1 h2) (not_lt.1 h1))

theorem less_asymm {a b : List Char} (h1 : less a b = true) : less b a = false := by
  cases h : less b a with
  | false => rfl
  | true => rw [← less_irrefl a, less_trans h1 h]

/-- The entries of a map are in the order of their keys. -/
def Ordered {V : Type} (m : List (List Char × V)) : Prop := m.Pairwise fun e f => less e.1 f.1 = true

variable {V : Type}

theorem put_mem {k : List Char} {v : V} : ∀ {m : List (List Char × V)} {e}, e ∈ put k v m → e = (k, v) ∨ e ∈ m
  | [], e, h => by simpa [put] using h
  | f :: m, e, h => by
    rw [put] at h
    split at h
    · simpa using h
    · split at h
      · rcases List.mem_cons.1 h with h | h
        · simp [h]
        · rcases put_mem h with h | h <;> simp [h]
      · rcases List.mem_cons.1 h with h | h <;> simp [h]

theorem put_ordered {k : List Char} {v : V} : ∀ {m : List (List Char × V)}, Ordered m → Ordered (put k v m)
  | [], _ => by simp [put, Ordered]
  | f :: m, h => by
    obtain ⟨h1, h2⟩ := List.pairwise_cons.1 h
    rw [put]
    split
    · rename_i hk
      refine List.pairwise_cons.2 ⟨fun e he => ?_, h⟩
      rcases List.mem_cons.1 he with rfl | he
      · exact hk
      · exact less_trans hk (h1 e he)
    · split
      · rename_i hk
        refine List.pairwise_cons.2 ⟨fun e he => ?_, put_ordered h2⟩
        rcases put_mem he with rfl | he
        · exact hk
        · exact h1 e he
      · rename_i hk hk'
        obtain rfl := less_total hk hk'
        exact List.pairwise_cons.2 ⟨h1, h2⟩

theorem at_none {k : List Char} {m : List (List Char × V)} (h : ∀ e ∈ m, less k e.1 = true) : at? k m = none := by
  cases m with
  | nil => rfl
  | cons e m => rw [at?, if_pos (h e (by simp))]

theorem at_put {k k' : List Char} {v : V} : ∀ {m : List (List Char × V)}, Ordered m →
    at? k' (put k v m) = if k' = k then some v else at? k' m
  | [], _ => by
    simp only [put, at?]
    by_cases h : k' = k
    · subst h; simp [less_irrefl]
    · rw [if_neg h]
      split
      · rfl
      · split
        · rfl
        · exact absurd (less_total (by assumption) (by assumption)) h
  | f :: m, h => by
    obtain ⟨h1, h2⟩ := List.pairwise_cons.1 h
    rw [put]
    split
    · rename_i hk
      by_cases e : k' = k
      · subst e; simp [at?, less_irrefl]
      · rw [if_neg e, at?]
        split
        · rename_i hk'
          exact (at_none fun g hg => by
            rcases List.mem_cons.1 hg with rfl | hg
            · exact less_trans hk' hk
            · exact less_trans (less_trans hk' hk) (h1 g hg)).symm
        · split
          · rfl
          · exact absurd (less_total (by assumption) (by assumption)) e
    · split
      · rename_i hk
        rw [at?, at_put h2]
        by_cases e : k' = k
        · subst e
          rw [if_neg (by rw [less_asymm hk]; simp), if_pos hk, if_pos rfl, if_pos rfl]
        · rw [if_neg e, if_neg e, at?]
      · rename_i hk hk'
        obtain rfl := less_total hk hk'
        by_cases e : k' = f.1
        · subst e; simp [at?, less_irrefl]
        · rw [if_neg e, at?, at?]
          split
          · rfl
          · split
            · rfl
            · exact absurd (less_total (by assumption) (by assumption)) e

theorem at_isSome {k : List Char} : ∀ {m : List (List Char × V)}, Ordered m → ((at? k m).isSome = true ↔ ∃ v, (k, v) ∈ m)
  | [], _ => by simp [at?]
  | f :: m, h => by
    obtain ⟨h1, h2⟩ := List.pairwise_cons.1 h
    rw [at?]
    split
    · rename_i hk
      simp only [Option.isSome_none, Bool.false_eq_true, false_iff, not_exists]
      intro v hv
      rcases List.mem_cons.1 hv with rfl | hv
      · rw [less_irrefl] at hk; simp at hk
      · have := less_trans hk (h1 _ hv)
        rw [less_irrefl] at this; simp at this
    · split
      · rename_i hk
        rw [at_isSome h2]
        constructor
        · rintro ⟨v, hv⟩; exact ⟨v, by simp [hv]⟩
        · rintro ⟨v, hv⟩
          rcases List.mem_cons.1 hv with rfl | hv
          · rw [less_irrefl] at hk; simp at hk
          · exact ⟨v, hv⟩
      · rename_i hk hk'
        obtain rfl := less_total hk hk'
        simp only [Option.isSome_some, true_iff]
        exact ⟨f.2, by simp⟩

/-! ## Parsing -/

theorem find_split : ∀ a : List Char, (find '=' a = none → nameOf a = a ∧ textOf a = []) ∧
    (∀ i, find '=' a = some i → nameOf a = a.take i ∧ textOf a = a.drop (i + 1) ∧ i < a.length)
  | [] => by simp [find, nameOf, textOf]
  | c :: as => by
    obtain ⟨h1, h2⟩ := find_split as
    rw [find]
    by_cases h : c = '='
    · subst h
      simp [nameOf, textOf]
    · rw [if_neg h]
      have hb : (c != '=') = true := by simpa using h
      constructor
      · intro hn
        obtain ⟨g1, g2⟩ := h1 (by simpa using hn)
        unfold nameOf textOf at *
        rw [List.takeWhile_cons, if_pos hb, List.dropWhile_cons, if_pos hb, g1, g2]
        exact ⟨rfl, rfl⟩
      · intro i hi
        obtain ⟨j, hj, rfl⟩ := Option.map_eq_some_iff.1 hi
        obtain ⟨g1, g2, g3⟩ := h2 j hj
        unfold nameOf textOf at *
        rw [List.takeWhile_cons, if_pos hb, List.dropWhile_cons, if_pos hb, g1, g2]
        exact ⟨rfl, rfl, by simpa using g3⟩

theorem parse_step (a : List Char) (as : List (List Char)) (m : List (List Char × List Char)) :
    parseLoop (a :: as) m = parseLoop as (put (nameOf a) (textOf a) m) := by
  obtain ⟨h1, h2⟩ := find_split a
  rw [parseLoop]
  cases h : find '=' a with
  | none => rw [(h1 h).1, (h1 h).2]
  | some i => rw [(h2 i h).1, (h2 i h).2.1]

theorem lastText_cons (a : List Char) (as : List (List Char)) (k : List Char) :
    lastText (a :: as) k = (lastText as k).or (if nameOf a = k then some (textOf a) else none) := by
  unfold lastText
  rw [List.reverse_cons, List.find?_append]
  cases List.find? (fun a => nameOf a == k) as.reverse with
  | some x => simp
  | none =>
    by_cases h : nameOf a = k
    · simp [h]
    · simp [h]

theorem at_parse (k : List Char) : ∀ (as : List (List Char)) (m : List (List Char × List Char)), Ordered m →
    at? k (parseLoop as m) = (lastText as k).or (at? k m)
  | [], m, _ => by simp [parseLoop, lastText]
  | a :: as, m, h => by
    rw [parse_step, at_parse k as _ (put_ordered h), at_put h, lastText_cons, Option.or_assoc]
    congr 1
    by_cases e : k = nameOf a
    · subst e; simp
    · rw [if_neg e, if_neg (Ne.symm e)]; rfl

theorem at_options (s : Manager) (argv : List (List Char)) (k : List Char) :
    at? k (parseParameters s argv).options = lastText (argv.drop 1) k := by
  unfold parseParameters
  rw [at_parse k _ [] (by simp [Ordered])]
  simp [at?]

/-! ## Numbers -/

theorem isDigit_eq (c : Char) : isDigit c = c.isDigit := by
  unfold isDigit Char.isDigit
  rw [Bool.eq_iff_iff]
  simp only [Bool.and_eq_true, decide_eq_true_eq, ge_iff_le, UInt32.le_iff_toNat_le]
  exact Iff.rfl

theorem isSpace_iff (c : Char) : isSpace c = true ↔ c ∈ [' ', '\t', '\n', '\x0b', '\x0c', '\r'] := by
  unfold isSpace
  simp only [Bool.or_eq_true, Bool.and_eq_true, decide_eq_true_eq, List.mem_cons, List.not_mem_nil, or_false]
  constructor
  · rintro (h | ⟨h1, h2⟩)
    · exact .inl h
    · right
      have : c.toNat = 9 ∨ c.toNat = 10 ∨ c.toNat = 11 ∨ c.toNat = 12 ∨ c.toNat = 13 := by omega
      rcases this with h | h | h | h | h
      · exact .inl (Char.toNat_inj.1 h)
      · exact .inr (.inl (Char.toNat_inj.1 h))
      · exact .inr (.inr (.inl (Char.toNat_inj.1 h)))
      · exact .inr (.inr (.inr (.inl (Char.toNat_inj.1 h))))
      · exact .inr (.inr (.inr (.inr (Char.toNat_inj.1 h))))
  · rintro (rfl | rfl | rfl | rfl | rfl | rfl)
    · exact .inl rfl
    all_goals exact .inr (by decide)

/-- The value of digits after a number. -/
def valueFrom (n : ℕ) (ds : List Char) : ℕ := ds.foldl (fun n c => 10 * n + (c.toNat - 48)) n

theorem digits_run : ∀ (ds rest : List Char) (n : ℕ) (seen : Bool), (∀ c ∈ ds, c.isDigit = true) →
    (∀ c, rest.head? = some c → c.isDigit = false) →
    digits (ds ++ rest) n seen = if seen = true ∨ ds ≠ [] then some ((valueFrom n ds : ℕ) : ℤ) else none
  | [], rest, n, seen, _, h => by
    cases rest with
    | nil => cases seen <;> simp [digits, valueFrom]
    | cons c cs =>
      have := h c rfl
      rw [← isDigit_eq] at this
      cases seen <;> simp [digits, valueFrom, this]
  | c :: ds, rest, n, seen, h1, h2 => by
    have hc := h1 c (by simp)
    have hd := hc
    rw [← isDigit_eq] at hd
    rw [List.cons_append, digits, if_pos hd]
    have h48 : 48 ≤ c.toNat := by
      unfold isDigit at hd
      simp only [Bool.and_eq_true, decide_eq_true_eq] at hd
      exact hd.1
    have e : (10 * (n : ℤ) + ((c.toNat : ℤ) - 48)) = ((10 * n + (c.toNat - 48) : ℕ) : ℤ) := by omega
    have := digits_run ds rest (10 * n + (c.toNat - 48)) true (fun c hc => h1 c (by simp [hc])) h2
    rw [e, this]
    simp [valueFrom]

theorem digits_none : ∀ (v : List Char), (∀ c, v.head? = some c → c.isDigit = false) → digits v 0 false = none := by
  intro v h
  have := digits_run [] v 0 false (by simp) h
  simpa using this

theorem split_digits (v : List Char) : ∃ ds rest, v = ds ++ rest ∧ (∀ c ∈ ds, c.isDigit = true) ∧
    ∀ c, rest.head? = some c → c.isDigit = false := by
  refine ⟨v.takeWhile Char.isDigit, v.dropWhile Char.isDigit, (List.takeWhile_append_dropWhile).symm, ?_, ?_⟩
  · exact fun c hc => List.all_eq_true.1 (List.all_takeWhile (l := v) (p := Char.isDigit)) c hc
  · intro c hc
    have := List.head?_dropWhile_not Char.isDigit v
    rw [hc] at this
    simpa using this

theorem space_not {c : Char} (h : isSpace c = true) : c.isDigit = false ∧ c ≠ '-' ∧ c ≠ '+' := by
  rw [isSpace_iff] at h
  simp only [List.mem_cons, List.not_mem_nil, or_false] at h
  rcases h with rfl | rfl | rfl | rfl | rfl | rfl <;> decide

theorem digit_not {c : Char} (h : c.isDigit = true) : isSpace c = false ∧ c ≠ '-' ∧ c ≠ '+' := by
  refine ⟨?_, ?_, ?_⟩
  · cases hs : isSpace c with
    | false => rfl
    | true => rw [(space_not hs).1] at h; simp at h
  · rintro rfl; revert h; decide
  · rintro rfl; revert h; decide

theorem strtol_of {v : List Char} {z : ℤ} (h : BeginsWith v z) : strtol v = some z := by
  obtain ⟨ws, sign, ds, rest, rfl, h1, h2, h3, h4, h5, rfl⟩ := h
  induction ws with
  | nil =>
    rw [List.nil_append]
    have hrun := digits_run ds rest 0 false h4 h5
    rw [if_pos (.inr h3)] at hrun
    rcases h2 with rfl | rfl | rfl
    · cases ds with
      | nil => exact absurd rfl h3
      | cons c cs =>
        obtain ⟨g1, g2, g3⟩ := digit_not (h4 c (by simp))
        rw [if_neg (by simp)]
        simp only [List.nil_append, List.cons_append] at hrun ⊢
        rw [strtol, if_neg (by rw [g1]; simp), if_neg g2, if_neg g3]
        exact hrun
    · rw [if_neg (by decide)]
      simp only [List.cons_append, List.nil_append]
      rw [strtol, if_neg (by decide), if_neg (by decide), if_pos rfl]
      exact hrun
    · rw [if_pos rfl]
      simp only [List.cons_append, List.nil_append]
      rw [strtol, if_neg (by decide), if_pos rfl]
      have hrun' : digits (ds ++ rest) 0 false = some ((valueFrom 0 ds : ℕ) : ℤ) := hrun
      rw [hrun']
      rfl
  | cons w ws ih =>
    simp only [List.cons_append]
    rw [strtol, if_pos ((isSpace_iff w).2 (h1 w (by simp)))]
    exact ih fun c hc => h1 c (by simp [hc])

theorem strtol_begins : ∀ {v : List Char} {z : ℤ}, strtol v = some z → BeginsWith v z
  | [], z, h => by simp [strtol] at h
  | c :: cs, z, h => by
    rw [strtol] at h
    split at h
    · rename_i hs
      obtain ⟨ws, sign, ds, rest, e, h1, h2⟩ := strtol_begins h
      refine ⟨c :: ws, sign, ds, rest, by simp [e], ?_, h2⟩
      intro d hd
      rcases List.mem_cons.1 hd with rfl | hd
      · exact (isSpace_iff d).1 hs
      · exact h1 d hd
    · have key : ∀ (v : List Char) (y : ℤ), digits v 0 false = some y → ∃ ds rest, v = ds ++ rest ∧ ds ≠ [] ∧ (∀ c ∈ ds, c.isDigit = true) ∧
          (∀ c, rest.head? = some c → c.isDigit = false) ∧ y = (decimalValue ds : ℤ) := by
        intro v y hy
        obtain ⟨ds, rest, rfl, g1, g2⟩ := split_digits v
        have hrun : digits (ds ++ rest) 0 false = _ := digits_run ds rest 0 false g1 g2
        by_cases hne : ds = []
        · rw [if_neg (by simp [hne]), hy] at hrun
          simp at hrun
        · rw [if_pos (.inr hne), hy] at hrun
          exact ⟨ds, rest, rfl, hne, g1, g2, Option.some.inj hrun⟩
      split at h
      · rename_i hm
        subst hm
        obtain ⟨y, hy, rfl⟩ := Option.map_eq_some_iff.1 h
        obtain ⟨ds, rest, rfl, g1, g2, g3, rfl⟩ := key _ _ hy
        exact ⟨[], ['-'], ds, rest, rfl, by simp, .inr (.inr rfl), g1, g2, g3, by simp⟩
      · split at h
        · rename_i hm
          subst hm
          obtain ⟨ds, rest, rfl, g1, g2, g3, rfl⟩ := key _ _ h
          exact ⟨[], ['+'], ds, rest, rfl, by simp, .inr (.inl rfl), g1, g2, g3, by rw [if_neg (by decide)]⟩
        · obtain ⟨ds, rest, e, g1, g2, g3, rfl⟩ := key _ _ h
          exact ⟨[], [], ds, rest, by simpa using e, by simp, .inl rfl, g1, g2, g3, by rw [if_neg (by simp)]⟩

theorem strtol_iff {v : List Char} {z : ℤ} : strtol v = some z ↔ BeginsWith v z := ⟨strtol_begins, strtol_of⟩

/-! ## Decimal digits -/

theorem digit_char {d : ℕ} (h : d < 10) : (Char.ofNat (48 + d)).toNat = 48 + d ∧ (Char.ofNat (48 + d)).isDigit = true := by
  have : d = 0 ∨ d = 1 ∨ d = 2 ∨ d = 3 ∨ d = 4 ∨ d = 5 ∨ d = 6 ∨ d = 7 ∨ d = 8 ∨ d = 9 := by omega
  rcases this with rfl | rfl | rfl | rfl | rfl | rfl | rfl | rfl | rfl | rfl <;> decide

theorem decimal_ok (n : ℕ) : decimal n ≠ [] ∧ (∀ c ∈ decimal n, c.isDigit = true) ∧ decimalValue (decimal n) = n := by
  induction n using Nat.strong_induction_on with
  | _ n ih =>
    rw [decimal]
    split
    · rename_i h
      obtain ⟨h1, h2⟩ := digit_char h
      exact ⟨by simp, by simpa using h2, by simp only [decimalValue, List.foldl_cons, List.foldl_nil]; omega⟩
    · obtain ⟨g1, g2, g3⟩ := ih (n / 10) (by omega)
      obtain ⟨h1, h2⟩ := digit_char (d := n % 10) (by omega)
      refine ⟨by simp, ?_, ?_⟩
      · intro c hc
        rcases List.mem_append.1 hc with hc | hc
        · exact g2 c hc
        · rw [List.mem_singleton.1 hc]; exact h2
      · unfold decimalValue at *
        rw [List.foldl_append, g3]
        simp only [List.foldl_cons, List.foldl_nil]
        omega

theorem integer_begins (z : ℤ) (rest : List Char) (h : ∀ c, rest.head? = some c → c.isDigit = false) :
    BeginsWith (integerText z ++ rest) z := by
  obtain ⟨h1, h2, h3⟩ := decimal_ok z.natAbs
  unfold integerText
  split
  · exact ⟨[], ['-'], decimal z.natAbs, rest, by simp, by simp, .inr (.inr rfl), h1, h2, h, by rw [if_pos rfl, h3]; omega⟩
  · exact ⟨[], [], decimal z.natAbs, rest, by simp, by simp, .inl rfl, h1, h2, h, by rw [if_neg (by simp), h3]; omega⟩

/-! ## The help text -/

/-- `AddArg` for a list of names and help texts. -/
def addAll : List (List Char × List Char) → Manager → Res Manager
  | [], s => .ok s
  | a :: as, s => do
    let s ← addArg s a.1 a.2
    addAll as s

/-- The entry of an option. -/
def entry (a : List Char × List Char) : List Char × List Char × List Char := (nameOf a.1, a.1.drop (nameOf a.1).length, a.2)

theorem addArg_eq (s : Manager) (a : List Char × List Char) :
    addArg s a.1 a.2 = if (at? (nameOf a.1) s.available).isSome then .error .abort
      else .ok { s with available := put (nameOf a.1) (a.1.drop (nameOf a.1).length, a.2) s.available } := by
  obtain ⟨h1, h2⟩ := find_split a.1
  have key : ∀ i, nameOf a.1 = a.1.take i → i ≤ a.1.length → (match at? (a.1.take i) s.available with
      | some _ => (.error .abort : Res Manager)
      | none => .ok { s with available := put (a.1.take i) ((a.1.drop i).take (a.1.length - i), a.2) s.available }) =
      if (at? (nameOf a.1) s.available).isSome then .error .abort
      else .ok { s with available := put (nameOf a.1) (a.1.drop (nameOf a.1).length, a.2) s.available } := by
    intro i hi hle
    have hlen : (nameOf a.1).length = i := by rw [hi, List.length_take]; omega
    have ht : (a.1.drop i).take (a.1.length - i) = a.1.drop i := by
      apply List.take_of_length_le
      rw [List.length_drop]
    rw [hlen, ← hi, ht]
    cases at? (nameOf a.1) s.available <;> rfl
  unfold addArg
  cases h : find '=' a.1 with
  | none => exact key _ (by rw [(h1 h).1, List.take_length]) (le_refl _)
  | some i => exact key _ (h2 i h).1 (h2 i h).2.2.le

theorem put_perm {k : List Char} {v : V} : ∀ {m : List (List Char × V)}, (∀ e ∈ m, e.1 ≠ k) → (put k v m).Perm ((k, v) :: m)
  | [], _ => by simp [put]
  | f :: m, h => by
    rw [put]
    split
    · exact List.Perm.refl _
    · split
      · exact ((put_perm fun e he => h e (by simp [he])).cons f).trans (List.Perm.swap _ _ _)
      · exact absurd (less_total (by assumption) (by assumption)).symm (h f (by simp))

theorem addAll_ok : ∀ (as : List (List Char × List Char)) (s : Manager), Ordered s.available →
    (as.map fun a => nameOf a.1).Nodup → (∀ a ∈ as, ∀ e ∈ s.available, e.1 ≠ nameOf a.1) →
    ∃ s', addAll as s = .ok s' ∧ Ordered s'.available ∧ s'.available.Perm (s.available ++ as.map entry) ∧ s'.options = s.options
  | [], s, h, _, _ => ⟨s, rfl, h, by simp, rfl⟩
  | a :: as, s, h, hn, hd => by
    rw [List.map_cons, List.nodup_cons] at hn
    have hp := put_perm (v := (a.1.drop (nameOf a.1).length, a.2)) (hd a (by simp))
    have hnone : (at? (nameOf a.1) s.available).isSome = false := by
      rw [← Bool.not_eq_true, at_isSome h]
      rintro ⟨v, hv⟩
      exact hd a (by simp) _ hv rfl
    obtain ⟨s', e1, e2, e3, e4⟩ := addAll_ok as
      { s with available := put (nameOf a.1) (a.1.drop (nameOf a.1).length, a.2) s.available } (put_ordered h) hn.2 (by
        intro b hb e he
        rcases put_mem he with rfl | he
        · intro hc
          exact hn.1 (List.mem_map.2 ⟨b, hb, hc.symm⟩)
        · exact hd b (by simp [hb]) e he)
    refine ⟨s', ?_, e2, e3.trans ?_, e4⟩
    · rw [addAll, addArg_eq, hnone]
      exact e1
    · refine (hp.append_right _).trans ?_
      rw [List.map_cons]
      exact (List.perm_middle (l₁ := s.available)).symm

theorem helpLoop_eq : ∀ (es : List (List Char × List Char × List Char)) (u : List Char),
    helpLoop es u = u ++ es.flatMap fun e => helpMessageOpt (e.1 ++ e.2.1) e.2.2
  | [], u => by simp [helpLoop]
  | e :: es, u => by
    rw [helpLoop, helpLoop_eq es, List.flatMap_cons, List.append_assoc]
    congr 3
    cases h : e.2.1 with
    | nil => simp
    | cons c cs => simp

theorem name_prefix (a : List Char) : nameOf a ++ a.drop (nameOf a).length = a := by
  unfold nameOf
  have h := List.takeWhile_append_dropWhile (p := (· != '=')) (l := a)
  have : a.drop (a.takeWhile (· != '=')).length = a.dropWhile (· != '=') := by
    conv_lhs => rw [← h]
    rw [List.drop_append]
    simp [h]
  rw [this, h]

end Args

open Args

/-- C80: `GetArg` returns the text after the first `=` of the last argument with that name, whatever the manager parsed before and
whatever the first element of `argv` is; without such an argument it returns the default. -/
theorem C80_value (s : Manager) (argv : List (List Char)) (name dflt : List Char) :
    getArg (parseParameters s argv) name dflt = (lastText (argv.drop 1) name).getD dflt := by
  unfold getArg
  rw [at_options]
  cases lastText (argv.drop 1) name <;> rfl

/-- C80: `IsArgSet` tells whether there is an argument with that name. -/
theorem C80_set (s : Manager) (argv : List (List Char)) (name : List Char) :
    isArgSet (parseParameters s argv) name = true ↔ ∃ a ∈ argv.drop 1, nameOf a = name := by
  unfold isArgSet
  rw [at_options]
  have h : (lastText (argv.drop 1) name).isSome = true ↔ ∃ a ∈ argv.drop 1, nameOf a = name := by
    unfold lastText
    rw [Option.isSome_map, List.find?_isSome]
    simp
  rw [← h]
  cases lastText (argv.drop 1) name <;> simp

/-- C80, exactly: `GetIntArg` returns the number at the beginning of the text if it fits into 32 bits. If it does not, it returns
the default; if there is no number, an exception leaves the function. -/
theorem C80_int_exact (s : Manager) (argv : List (List Char)) (name : List Char) (dflt : ℤ) :
    (lastText (argv.drop 1) name = none → getIntArg (parseParameters s argv) name dflt = .ok dflt) ∧
    ∀ v, lastText (argv.drop 1) name = some v →
      (∀ z, BeginsWith v z → -2 ^ 31 ≤ z → z < 2 ^ 31 → getIntArg (parseParameters s argv) name dflt = .ok z) ∧
      (∀ z, BeginsWith v z → ¬ (-2 ^ 31 ≤ z ∧ z < 2 ^ 31) → getIntArg (parseParameters s argv) name dflt = .ok dflt) ∧
      ((∀ z, ¬ BeginsWith v z) → getIntArg (parseParameters s argv) name dflt = .error .exc) := by
  unfold getIntArg
  rw [at_options]
  constructor
  · intro h; rw [h]
  · intro v h
    rw [h]
    refine ⟨fun z hz h1 h2 => ?_, fun z hz hn => ?_, fun hn => ?_⟩
    · simp only [stoi, strtol_of hz]
      rw [if_pos ⟨by omega, by omega⟩]
    · simp only [stoi, strtol_of hz]
      rw [if_neg (by omega)]
    · have : strtol v = none := by
        cases hs : strtol v with
        | none => rfl
        | some z => exact absurd (strtol_begins hs) (hn z)
      simp only [stoi, this]

/-- C80, as far as it holds: a 32 bit number written in decimal is read back, whatever follows it that is no digit. -/
theorem C80_int_partial (s : Manager) (argv : List (List Char)) (name : List Char) (dflt z : ℤ) (rest : List Char)
    (hr : ∀ c, rest.head? = some c → c.isDigit = false) (hv : lastText (argv.drop 1) name = some (integerText z ++ rest))
    (h1 : -2 ^ 31 ≤ z) (h2 : z < 2 ^ 31) : getIntArg (parseParameters s argv) name dflt = .ok z :=
  ((C80_int_exact s argv name dflt).2 _ hv).1 z (integer_begins z rest hr) h1 h2

/-- C80 is false for numbers: the header says that `GetIntArg` returns 0 for an invalid number; the code lets an exception out that
nobody catches, and for a number that is too large it returns the default. -/
theorem C80_false :
    getIntArg (parseParameters new ["bench".toList, "-min_time=soon".toList]) "-min_time".toList 10 = .error .exc ∧
    getIntArg (parseParameters new ["bench".toList, "-min_time=2147483648".toList]) "-min_time".toList 10 = .ok 10 := by
  decide +kernel

/-- C80: options with different names are accepted in any order, and the help lists each of them once, sorted by name, with the text
given. -/
theorem C80_help (as : List (List Char × List Char)) (h : (as.map fun a => nameOf a.1).Nodup) (argv : List (List Char)) :
    ∃ (s : Manager) (bs : List (List Char × List Char)), addAll as new = .ok s ∧ bs.Perm as ∧ bs.Pairwise (fun a b => (nameOf a.1).map Char.toNat < (nameOf b.1).map Char.toNat) ∧
      getHelpMessage (parseParameters s argv) =
        "Options\n\n".toList ++ bs.flatMap fun a => "  ".toList ++ a.1 ++ "\n       ".toList ++ a.2 ++ "\n\n".toList := by
  obtain ⟨s, e1, e2, e3, -⟩ := addAll_ok as new (by simp [Ordered, new]) h (by simp [new])
  rw [show (new.available : List (List Char × List Char × List Char)) = [] from rfl, List.nil_append] at e3
  obtain ⟨bs, b1, b2⟩ : ∃ bs : List (List Char × List Char), bs.Perm as ∧ bs.map entry = s.available := by
    refine ⟨s.available.map fun e => (e.1 ++ e.2.1, e.2.2), ?_, ?_⟩
    · have := e3.map fun e => (e.1 ++ e.2.1, e.2.2)
      rw [List.map_map] at this
      refine this.trans (List.Perm.of_eq ?_)
      conv_rhs => rw [← List.map_id as]
      apply List.map_congr_left
      intro a _
      simp [entry, name_prefix]
    · rw [List.map_map]
      conv_rhs => rw [← List.map_id s.available]
      apply List.map_congr_left
      intro e he
      obtain ⟨a, -, rfl⟩ := List.mem_map.1 (e3.mem_iff.1 he)
      simp [entry, name_prefix]
  refine ⟨s, bs, e1, b1, ?_, ?_⟩
  · unfold Ordered at e2
    rw [← b2, List.pairwise_map] at e2
    exact e2.imp fun h => (less_iff _ _).1 h
  · change helpLoop s.available _ = _
    rw [helpLoop_eq, ← b2, List.flatMap_map]
    congr 1
    apply List.flatMap_congr
    intro a _
    simp only [entry, helpMessageOpt, name_prefix]
    simp [List.append_assoc]

/-- C80: a second option with the same name fails the assertion. -/
theorem C80_twice (as : List (List Char × List Char)) (h : (as.map fun a => nameOf a.1).Nodup) (s : Manager) (hs : addAll as new = .ok s)
    (name help : List Char) (hn : ∃ a ∈ as, nameOf a.1 = nameOf name) : addArg s name help = .error .abort := by
  obtain ⟨s', e1, e2, e3, -⟩ := addAll_ok as new (by simp [Ordered, new]) h (by simp [new])
  rw [hs] at e1
  obtain rfl := Except.ok.inj e1
  obtain ⟨a, ha, e⟩ := hn
  rw [addArg_eq s (name, help), (at_isSome e2).2 ⟨(entry a).2, ?_⟩]
  · rfl
  · rw [show (new.available : List (List Char × List Char × List Char)) = [] from rfl, List.nil_append] at e3
    rw [e3.mem_iff]
    exact List.mem_map.2 ⟨a, ha, by rw [← e]; rfl⟩

/-- C80: what the program does with its arguments: it prints the help if one of them is named `-?` or `-h`, and otherwise runs the
benchmarks with the values given last. -/
theorem C80_main (argv : List (List Char)) :
    ((∃ a ∈ argv.drop 1, nameOf a = "-?".toList ∨ nameOf a = "-h".toList) → ∃ text, Args.main argv = .ok (.help text)) ∧
    (¬ (∃ a ∈ argv.drop 1, nameOf a = "-?".toList ∨ nameOf a = "-h".toList) →
      let asymptote := (lastText (argv.drop 1) "-asymptote".toList).getD []
      let filter := (lastText (argv.drop 1) "-filter".toList).getD ".*".toList
      (lastText (argv.drop 1) "-min_time".toList = none → Args.main argv = .ok (.run asymptote 10 filter)) ∧
      ∀ v, lastText (argv.drop 1) "-min_time".toList = some v →
        (∀ z, BeginsWith v z → -2 ^ 31 ≤ z → z < 2 ^ 31 → Args.main argv = .ok (.run asymptote z filter)) ∧
        (∀ z, BeginsWith v z → ¬ (-2 ^ 31 ≤ z ∧ z < 2 ^ 31) → Args.main argv = .ok (.run asymptote 10 filter)) ∧
        ((∀ z, ¬ BeginsWith v z) → Args.main argv = .error .exc)) := by
  obtain ⟨s, hs⟩ : ∃ s, setupBenchArgs new = .ok s := by
    have : (match setupBenchArgs new with | .ok _ => true | .error _ => false) = true := by decide +kernel
    cases h : setupBenchArgs new with
    | ok s => exact ⟨s, rfl⟩
    | error e => rw [h] at this; simp at this
  have hset := C80_set s argv
  have start : Args.main argv = if isArgSet (parseParameters s argv) "-?".toList || isArgSet (parseParameters s argv) "-h".toList
      then .ok (.help (getHelpMessage (parseParameters s argv)))
      else (getIntArg (parseParameters s argv) "-min_time".toList 10).bind fun t =>
        .ok (.run (getArg (parseParameters s argv) "-asymptote".toList []) t (getArg (parseParameters s argv) "-filter".toList ".*".toList)) := by
    unfold Args.main
    rw [hs]
    simp only [bind, Except.bind]
    split <;> rfl
  have hiff : (isArgSet (parseParameters s argv) "-?".toList || isArgSet (parseParameters s argv) "-h".toList) = true ↔
      ∃ a ∈ argv.drop 1, nameOf a = "-?".toList ∨ nameOf a = "-h".toList := by
    rw [Bool.or_eq_true, hset, hset]
    constructor
    · rintro (⟨a, h1, h2⟩ | ⟨a, h1, h2⟩)
      · exact ⟨a, h1, .inl h2⟩
      · exact ⟨a, h1, .inr h2⟩
    · rintro ⟨a, h1, h2 | h2⟩
      · exact .inl ⟨a, h1, h2⟩
      · exact .inr ⟨a, h1, h2⟩
  constructor
  · intro h
    rw [start, if_pos (hiff.2 h)]
    exact ⟨_, rfl⟩
  · intro h
    rw [start, if_neg (fun hc => h (hiff.1 hc)), C80_value, C80_value]
    obtain ⟨g1, g2⟩ := C80_int_exact s argv "-min_time".toList 10
    refine ⟨fun hm => by rw [g1 hm]; rfl, fun v hm => ?_⟩
    obtain ⟨k1, k2, k3⟩ := g2 v hm
    exact ⟨fun z hz h1 h2 => by rw [k1 z hz h1 h2]; rfl, fun z hz hn => by rw [k2 z hz hn]; rfl, fun hn => by rw [k3 hn]; rfl⟩

/-! ## Concrete cases -/

/-- The last of two arguments with the same name counts, and only its first `=` separates. -/
example : lastText ["-filter=a".toList, "-min_time=5".toList, "-filter=b=c".toList] "-filter".toList = some "b=c".toList := by
  decide +kernel

/-- The hypotheses of `C80_int_partial` are met: the text after the number is ignored. -/
example : lastText ["-min_time=-17ms".toList] "-min_time".toList = some (integerText (-17) ++ "ms".toList) ∧
    getIntArg (parseParameters new ["bench".toList, "-min_time=-17ms".toList]) "-min_time".toList 10 = .ok (-17) := by
  decide +kernel

/-- The hypotheses of `C80_help` are met for the options of the program. -/
example : ((["-min_time=<milliseconds>", "-filter=<regex>", "-?"].map String.toList).map fun a => nameOf a).Nodup ∧
    (addAll [("-min_time=<ms>".toList, "time".toList), ("-?".toList, "help".toList)] new).map getHelpMessage =
      .ok "Options\n\n  -?\n       help\n\n  -min_time=<ms>\n       time\n\n".toList := by
  decide +kernel

end Utreexo
