import Verif.Model.Runner
import Verif.Props.Args

/-!
# C85: which benchmarks are run

The benchmarks register themselves in an order that the language leaves open between source files. The theorems say that the calls do
not depend on it: every benchmark whose name matches is called, once or once for each number asked for, in the order of the names.
-/

set_option linter.unusedSectionVars false

namespace Utreexo
open Args Runner Spec

variable {B N : Type}

namespace Runner

theorem insert_mem {k : List Char} {v : B} : ∀ {m : List (List Char × B)}, Ordered m → ∀ e,
    (e ∈ insert k v m ↔ e ∈ m ∨ (e = (k, v) ∧ ∀ f ∈ m, f.1 ≠ k))
  | [], _, e => by simp [insert]
  | g :: m, h, e => by
    obtain ⟨h1, h2⟩ := List.pairwise_cons.1 h
    rw [insert]
    split
    · rename_i hk
      have hno : ∀ f ∈ g :: m, f.1 ≠ k := by
        rintro f hf rfl
        rcases List.mem_cons.1 hf with rfl | hf
        · rw [less_irrefl] at hk; simp at hk
        · have := less_trans hk (h1 f hf)
          rw [less_irrefl] at this; simp at this
      rw [List.mem_cons]
      constructor
      · rintro (rfl | he)
        · exact .inr ⟨rfl, hno⟩
        · exact .inl he
      · rintro (he | ⟨rfl, -⟩)
        · exact .inr he
        · exact .inl rfl
    · split
      · rename_i hk
        have hg : g.1 ≠ k := by
          rintro rfl
          rw [less_irrefl] at hk; simp at hk
        rw [List.mem_cons, insert_mem h2, List.mem_cons]
        constructor
        · rintro (rfl | he | ⟨rfl, hn⟩)
          · exact .inl (.inl rfl)
          · exact .inl (.inr he)
          · refine .inr ⟨rfl, fun f hf => ?_⟩
            rcases List.mem_cons.1 hf with rfl | hf
            · exact hg
            · exact hn f hf
        · rintro ((rfl | he) | ⟨rfl, hn⟩)
          · exact .inl rfl
          · exact .inr (.inl he)
          · exact .inr (.inr ⟨rfl, fun f hf => hn f (List.mem_cons_of_mem _ hf)⟩)
      · rename_i hk hk'
        obtain rfl := less_total hk hk'
        constructor
        · exact fun he => .inl he
        · rintro (he | ⟨rfl, hn⟩)
          · exact he
          · exact absurd rfl (hn g (by simp))

theorem insert_ordered {k : List Char} {v : B} : ∀ {m : List (List Char × B)}, Ordered m → Ordered (insert k v m)
  | [], _ => by simp [insert, Ordered]
  | f :: m, h => by
    obtain ⟨h1, h2⟩ := List.pairwise_cons.1 h
    rw [insert]
    split
    · rename_i hk
      refine List.pairwise_cons.2 ⟨fun e he => ?_, h⟩
      rcases List.mem_cons.1 he with rfl | he
      · exact hk
      · exact less_trans hk (h1 e he)
    · split
      · rename_i hk
        refine List.pairwise_cons.2 ⟨fun e he => ?_, insert_ordered h2⟩
        rcases (insert_mem h2 e).1 he with he | ⟨rfl, -⟩
        · exact h1 e he
        · exact hk
      · exact h

theorem register_ordered : ∀ (es m : List (List Char × B)), Ordered m → Ordered (register es m)
  | [], _, h => h
  | _ :: es, _, h => register_ordered es _ (insert_ordered h)

/-- An entry is in the map if it was there or it is the first one registered with its name. -/
theorem register_mem : ∀ (es m : List (List Char × B)), Ordered m → ∀ e,
    (e ∈ register es m ↔ e ∈ m ∨ ((∀ f ∈ m, f.1 ≠ e.1) ∧ (es.find? fun f => f.1 == e.1) = some e))
  | [], m, _, e => by simp [register]
  | g :: es, m, h, e => by
    rw [register, register_mem es _ (insert_ordered h), insert_mem h, List.find?_cons]
    by_cases hg : g.1 = e.1
    · rw [show (g.1 == e.1) = true by simpa using hg]
      simp only [Option.some.injEq]
      constructor
      · rintro ((he | ⟨rfl, hn⟩) | ⟨hn, -⟩)
        · exact .inl he
        · exact .inr ⟨hn, rfl⟩
        · by_cases hm : ∃ f ∈ m, f.1 = g.1
          · obtain ⟨f, hf, e1⟩ := hm
            exact absurd (e1.trans hg) (hn f ((insert_mem h f).2 (.inl hf)))
          · exact absurd hg (hn (g.1, g.2) ((insert_mem h _).2 (.inr ⟨rfl, fun f hf e1 => hm ⟨f, hf, e1⟩⟩)))
      · rintro (he | ⟨hn, rfl⟩)
        · exact .inl (.inl he)
        · exact .inl (.inr ⟨rfl, hn⟩)
    · rw [show (g.1 == e.1) = false by simpa using hg]
      constructor
      · rintro ((he | ⟨rfl, hn⟩) | ⟨hn, hf⟩)
        · exact .inl he
        · exact absurd rfl hg
        · exact .inr ⟨fun f hf => hn f ((insert_mem h f).2 (.inl hf)), hf⟩
      · rintro (he | ⟨hn, hf⟩)
        · exact .inl (.inl he)
        · refine .inr ⟨fun f hf => ?_, hf⟩
          rcases (insert_mem h f).1 hf with hf | ⟨rfl, -⟩
          · exact hn f hf
          · exact hg

/-- Two maps with the same entries are equal. -/
theorem ordered_ext : ∀ {a b : List (List Char × B)}, Ordered a → Ordered b → (∀ e, e ∈ a ↔ e ∈ b) → a = b
  | [], [], _, _, _ => rfl
  | [], f :: b, _, _, h => absurd ((h f).2 (by simp)) (by simp)
  | e :: a, [], _, _, h => absurd ((h e).1 (by simp)) (by simp)
  | e :: a, f :: b, ha, hb, h => by
    obtain ⟨a1, a2⟩ := List.pairwise_cons.1 ha
    obtain ⟨b1, b2⟩ := List.pairwise_cons.1 hb
    have irr : ∀ g : List Char × B, ¬ less g.1 g.1 = true := fun g => by rw [less_irrefl]; simp
    have hef : e = f := by
      rcases List.mem_cons.1 ((h e).1 (by simp)) with he | he
      · exact he
      · rcases List.mem_cons.1 ((h f).2 (by simp)) with hf | hf
        · exact hf.symm
        · exact absurd (less_trans (a1 f hf) (b1 e he)) (irr e)
    subst hef
    rw [ordered_ext a2 b2 fun g => ?_]
    constructor
    · intro hg
      rcases List.mem_cons.1 ((h g).1 (List.mem_cons_of_mem _ hg)) with rfl | hg'
      · exact absurd (a1 g hg) (irr g)
      · exact hg'
    · intro hg
      rcases List.mem_cons.1 ((h g).2 (List.mem_cons_of_mem _ hg)) with rfl | hg'
      · exact absurd (b1 g hg) (irr g)
      · exact hg'

theorem find_mem {e : List Char × B} (l : List (List Char × B)) (hl : (l.map Prod.fst).Nodup) :
    (l.find? fun f => f.1 == e.1) = some e ↔ e ∈ l := by
  constructor
  · exact List.mem_of_find?_eq_some
  · intro he
    induction l with
    | nil => simp at he
    | cons g l ih =>
      rw [List.map_cons, List.nodup_cons] at hl
      rw [List.find?_cons]
      rcases List.mem_cons.1 he with rfl | he
      · simp
      · have : g.1 ≠ e.1 := fun hc => hl.1 (hc ▸ List.mem_map_of_mem (f := Prod.fst) he)
        rw [show (g.1 == e.1) = false by simpa using this]
        exact ih hl.2 he

theorem loop_eq (isMatch : List Char → Bool) (asymptote : List N) (minTime : ℤ) (t : ℕ) (ht : minEpoch minTime = .ok t) :
    ∀ m : List (List Char × B), runLoop isMatch asymptote minTime m = .ok ((m.filter fun e => isMatch e.1).flatMap fun e =>
      if asymptote = [] then [{ name := e.1, func := e.2, minEpoch := t, size := none }]
      else asymptote.map fun n => { name := e.1, func := e.2, minEpoch := t, size := some n })
  | [] => rfl
  | e :: m => by
    rw [runLoop, List.filter_cons]
    split
    · rw [ht, loop_eq isMatch asymptote minTime t ht m, List.flatMap_cons]
      simp only [bind, Except.bind, pure, Except.pure, List.isEmpty_iff]
    · exact loop_eq isMatch asymptote minTime t ht m

theorem epoch_ok {z : ℤ} (h : z < 2 ^ 31) : ∃ t, minEpoch z = .ok t := by
  unfold minEpoch
  split
  · rw [if_pos (by omega)]
    exact ⟨_, rfl⟩
  · exact ⟨_, rfl⟩

end Runner

/-- C85: the order in which the benchmarks register makes no difference to the program, if their names are different. -/
theorem C85_order (regex : List Char → Option (List Char → Bool)) (rd : ℤ → ℤ → Option N) (bs bs' : List (List Char × B))
    (h : bs.Perm bs') (hn : (bs.map Prod.fst).Nodup) (argv : List (List Char)) :
    program regex rd bs argv = program regex rd bs' argv := by
  have key : register bs [] = register bs' [] := by
    refine ordered_ext (register_ordered _ _ List.Pairwise.nil) (register_ordered _ _ List.Pairwise.nil) fun e => ?_
    rw [register_mem bs [] List.Pairwise.nil, register_mem bs' [] List.Pairwise.nil, find_mem bs hn,
      find_mem bs' ((h.map Prod.fst).nodup_iff.1 hn), h.mem_iff]
  unfold program
  rw [key]

/-- C85: what is run. With a valid filter and a minimum time that fits in 32 bits, as the option is read, the program makes the calls in
`calls`: their names are in the order of strings, with the calls of one benchmark together; a benchmark is called if it is the first one registered with
its name and the name matches; once without a number if none is given, and otherwise once for each number in the order given; always with the same
minimum time of an epoch. -/
theorem C85_calls (regex : List Char → Option (List Char → Bool)) (asymptote : List N) (minTime : ℤ) (hz : minTime < 2 ^ 31)
    (filter : List Char) (isMatch : List Char → Bool) (hr : regex filter = some isMatch) (bs : List (List Char × B)) :
    ∃ (chosen : List (List Char × B)) (t : ℕ), runAll regex asymptote minTime filter (register bs []) = .ok (chosen.flatMap fun e =>
        if asymptote = [] then [{ name := e.1, func := e.2, minEpoch := t, size := none }]
        else asymptote.map fun n => { name := e.1, func := e.2, minEpoch := t, size := some n }) ∧
      (chosen.Pairwise fun e f => e.1.map Char.toNat < f.1.map Char.toNat) ∧
      (∀ e, e ∈ chosen ↔ (bs.find? fun f => f.1 == e.1) = some e ∧ isMatch e.1 = true) ∧
      (minTime ≤ 0 → t = 0) ∧ (0 < minTime → (11 * t : ℤ) ≤ minTime * 1000000 ∧ minTime * 1000000 < 11 * t + 11) := by
  obtain ⟨t, ht⟩ := epoch_ok hz
  refine ⟨(register bs []).filter fun e => isMatch e.1, t, ?_, ?_, fun e => ?_, ?_, ?_⟩
  · unfold runAll
    rw [hr]
    exact loop_eq isMatch asymptote minTime t ht _
  · exact ((register_ordered bs [] List.Pairwise.nil).filter _).imp fun {e f} h => (less_iff _ _).1 h
  · rw [List.mem_filter, register_mem bs [] List.Pairwise.nil]
    simp
  · intro h
    unfold minEpoch at ht
    rw [if_neg (by omega)] at ht
    exact (Except.ok.inj ht).symm
  · intro h
    unfold minEpoch at ht
    rw [if_pos h, if_pos (by omega)] at ht
    obtain rfl := Except.ok.inj ht
    unfold epochs
    omega

/-- C85: an invalid filter ends the program with an exception before anything is run. -/
theorem C85_invalid (regex : List Char → Option (List Char → Bool)) (asymptote : List N) (minTime : ℤ) (filter : List Char)
    (hr : regex filter = none) (bs : List (List Char × B)) : runAll regex asymptote minTime filter (register bs []) = .error .exc := by
  unfold runAll
  rw [hr]

/-- C85: the program run without options calls every benchmark once, without a number, in the order of the names, with 909090 nanoseconds as the
minimum time of an epoch, provided that the filter `.*` matches every name. -/
theorem C85_default (regex : List Char → Option (List Char → Bool)) (rd : ℤ → ℤ → Option N)
    (isMatch : List Char → Bool) (hr : regex ".*".toList = some isMatch) (bs : List (List Char × B)) (hm : ∀ e ∈ bs, isMatch e.1 = true)
    (hn : (bs.map Prod.fst).Nodup) (name : List Char) :
    ∃ chosen : List (List Char × B), program regex rd bs [name] =
        .ok (some (chosen.map fun e => { name := e.1, func := e.2, minEpoch := 909090, size := none })) ∧
      chosen.Perm bs ∧ chosen.Pairwise fun e f => e.1.map Char.toNat < f.1.map Char.toNat := by
  have hmain : Args.main [name] = .ok (.run [] 10 ".*".toList) := by
    have := ((C80_main [name]).2 (by simp)).1 (by simp [lastText])
    simpa [lastText] using this
  obtain ⟨chosen, t, e1, e2, e3, -, e4⟩ := C85_calls regex (parseAsymptote rd []) 10 (by decide) _ isMatch hr bs
  have ht : t = 909090 := by
    have := e4 (by decide)
    omega
  subst ht
  refine ⟨chosen, ?_, ?_, e2⟩
  · unfold program
    rw [hmain]
    simp only [bind, Except.bind, pure, Except.pure]
    rw [e1]
    simp only [show parseAsymptote rd [] = [] from rfl, if_true, Except.ok.injEq, Option.some.injEq]
    clear e1 e2 e3
    induction chosen with
    | nil => rfl
    | cons a l ih => rw [List.flatMap_cons, ih]; rfl
  · have hnd : chosen.Nodup := e2.imp fun {e f} h he => by subst he; exact lt_irrefl _ h
    refine (List.perm_ext_iff_of_nodup hnd ((List.pairwise_map.1 hn).imp fun h he => h (by rw [he]))).2 fun e => ?_
    rw [e3, find_mem bs hn]
    exact ⟨fun h => h.1, fun h => ⟨h, hm e h⟩⟩

/-- The names of the benchmarks in the order of strings. -/
def sortedNames : List String :=
  ["AddElementsForest", "AddElementsPollard", "AddElementsWithModifyForest", "ProveElementsForest",
    "RemoveElementsForest", "RestoreFromDiskForest", "RestorePollard", "VerifyElementsForest", "VerifyElementsPollard"]

/-- C85: the benchmarks of the repository, in whatever order the source files are initialised. -/
theorem C85_repository (regex : List Char → Option (List Char → Bool)) (rd : ℤ → ℤ → Option N)
    (isMatch : List Char → Bool) (hr : regex ".*".toList = some isMatch) (hm : ∀ s, isMatch s = true) (bs : List (List Char × B))
    (hb : (bs.map Prod.fst).Perm (registered.map String.toList)) (name : List Char) :
    ∃ calls : List (Call B N), program regex rd bs [name] = .ok (some calls) ∧
      calls.map (fun c => String.ofList c.name) = sortedNames := by
  have hnd : (bs.map Prod.fst).Nodup := hb.nodup_iff.2 (by decide +kernel)
  obtain ⟨chosen, e1, e2, e3⟩ := C85_default regex rd isMatch hr bs (fun e _ => hm e.1) hnd name
  refine ⟨_, e1, ?_⟩
  have hp : registered.Perm sortedNames := by decide +kernel
  have key : (chosen.map fun e => (e.1, ())) = (sortedNames.map fun x => (x.toList, ())) := by
    refine ordered_ext ?_ ?_ fun e => ?_
    · unfold Ordered
      rw [List.pairwise_map]
      exact e3.imp fun {e f} h => (less_iff _ _).2 h
    · unfold Ordered
      decide +kernel
    · have h1 : e ∈ (chosen.map fun e => (e.1, ())) ↔ e.1 ∈ chosen.map Prod.fst := by
        rw [List.mem_map, List.mem_map]
        constructor
        · rintro ⟨a, ha, rfl⟩; exact ⟨a, ha, rfl⟩
        · rintro ⟨a, ha, h⟩; exact ⟨a, ha, Prod.ext h rfl⟩
      have h2 : ∀ l : List String, e ∈ (l.map fun x => (x.toList, ())) ↔ e.1 ∈ l.map String.toList := by
        intro l
        rw [List.mem_map, List.mem_map]
        constructor
        · rintro ⟨a, ha, rfl⟩; exact ⟨a, ha, rfl⟩
        · rintro ⟨a, ha, h⟩; exact ⟨a, ha, Prod.ext h rfl⟩
      rw [h1, h2, (e2.map Prod.fst).mem_iff, hb.mem_iff, (hp.map String.toList).mem_iff]
  have := congrArg (List.map fun e : List Char × Unit => String.ofList e.1) key
  rw [List.map_map, List.map_map] at this
  rw [List.map_map]
  refine this.trans ?_
  rw [List.map_congr_left (g := id) (fun x _ => by simp), List.map_id]

/-! ## The numbers of the option `-asymptote` -/

namespace Runner

theorem collect_digits : ∀ (ds rest : List Char) (g p x : Bool), (∀ c ∈ ds, c.isDigit = true) → ∃ g',
    collect (ds ++ rest) g p x = (ds ++ (collect rest g' p x).1, (collect rest g' p x).2)
  | [], rest, g, p, x, _ => ⟨g, rfl⟩
  | c :: ds, rest, g, p, x, h => by
    obtain ⟨g', e⟩ := collect_digits ds rest true p x (fun d hd => h d (by simp [hd]))
    refine ⟨g', ?_⟩
    rw [List.cons_append, collect.eq_def]
    dsimp only
    rw [if_pos (by rw [isDigit_eq]; exact h c (by simp)), e]
    rfl

/-- What may follow a number in the list. -/
def Stop (rest : List Char) : Prop := rest = [] ∨ ∃ r, rest = ',' :: r

theorem collect_stop {rest : List Char} (h : Stop rest) (g p x : Bool) : collect rest g p x = ([], rest) := by
  rcases h with rfl | ⟨r, rfl⟩
  · rfl
  · rw [collect.eq_def]
    dsimp only
    rw [if_neg (by decide), if_neg (by simp), if_neg (by simp)]

/-- The text of a fraction. -/
def fracText (fs : List Char) : List Char := if fs = [] then [] else '.' :: fs

theorem collect_number (ds fs rest : List Char) (hd : ∀ c ∈ ds, c.isDigit = true) (hf : ∀ c ∈ fs, c.isDigit = true) (h : Stop rest)
    (g : Bool) : collect (ds ++ (fracText fs ++ rest)) g false false = (ds ++ fracText fs, rest) := by
  obtain ⟨g', e⟩ := collect_digits ds (fracText fs ++ rest) g false false hd
  rw [e]
  unfold fracText
  split
  · rw [List.nil_append, collect_stop h]
  · obtain ⟨g2, e2⟩ := collect_digits fs rest g' true false hf
    rw [List.cons_append, collect.eq_def]
    dsimp only
    rw [if_neg (by decide), if_pos (by simp), e2, collect_stop h]
    simp

theorem digit_ne {c : Char} (h : c.isDigit = true) : c ≠ '+' ∧ c ≠ '-' ∧ c ≠ '.' ∧ c ≠ 'e' := by
  refine ⟨?_, ?_, ?_, ?_⟩ <;> rintro rfl <;> simp at h

theorem takeSign_text {sign ds rest : List Char} (hs : sign = [] ∨ sign = ['+'] ∨ sign = ['-']) (hn : ds ≠ []) (hd : ∀ c ∈ ds, c.isDigit = true) :
    takeSign (sign ++ (ds ++ rest)) = (sign, ds ++ rest) := by
  rcases hs with rfl | rfl | rfl
  · cases ds with
    | nil => exact absurd rfl hn
    | cons c ds =>
      have := digit_ne (hd c (by simp))
      simp [takeSign, this.1, this.2.1]
  · simp [takeSign]
  · simp [takeSign]

theorem span_digits {ds rest : List Char} (hd : ∀ c ∈ ds, c.isDigit = true) (hr : ∀ c, rest.head? = some c → c.isDigit = false) :
    (ds ++ rest).takeWhile isDigit = ds ∧ (ds ++ rest).dropWhile isDigit = rest := by
  induction ds with
  | nil =>
    cases rest with
    | nil => exact ⟨rfl, rfl⟩
    | cons c rest =>
      have : isDigit c = false := by rw [isDigit_eq]; exact hr c rfl
      simp [List.takeWhile_cons, List.dropWhile_cons, this]
  | cons c ds ih =>
    have : isDigit c = true := by rw [isDigit_eq]; exact hd c (by simp)
    obtain ⟨a, b⟩ := ih (fun d h => hd d (by simp [h]))
    simp [List.takeWhile_cons, List.dropWhile_cons, this, a, b]

theorem value_cons_zero (ds : List Char) : decimalValue ('0' :: ds) = decimalValue ds := by
  simp [decimalValue]

theorem strtod_number {sign ds fs : List Char} (hs : sign = [] ∨ sign = ['+'] ∨ sign = ['-']) (hn : ds ≠ [])
    (hd : ∀ c ∈ ds, c.isDigit = true) (hf : ∀ c ∈ fs, c.isDigit = true) :
    strtod (sign ++ (ds ++ fracText fs)) = some (signed sign (decimalValue (ds ++ fs)), -(fs.length : ℤ)) := by
  unfold strtod
  rw [takeSign_text hs hn hd]
  have hhead : ∀ c, (fracText fs).head? = some c → c.isDigit = false := by
    intro c
    unfold fracText
    split
    · simp
    · simp only [List.head?_cons, Option.some.injEq]
      rintro rfl
      decide
  obtain ⟨a, b⟩ := span_digits hd hhead
  simp only [a, b]
  have hne : ds.isEmpty = false := by cases ds with
    | nil => exact absurd rfl hn
    | cons _ _ => rfl
  by_cases h0 : fs = []
  · subst h0
    simp only [fracText, if_true, hne, Bool.false_and, Bool.false_eq_true, if_false]
    rfl
  · obtain ⟨c1, c2⟩ := span_digits (rest := []) hf (by simp)
    rw [List.append_nil] at c1 c2
    simp only [fracText, if_neg h0, hne, Bool.false_and, Bool.false_eq_true, if_false, c1, c2]
    rfl

/-- Leading zeros. -/
theorem zeros_split (ds : List Char) : ∃ (k : ℕ) (ds' : List Char), ds = List.replicate k '0' ++ ds' ∧ ∀ c, ds'.head? = some c → c ≠ '0' := by
  induction ds with
  | nil => exact ⟨0, [], rfl, by simp⟩
  | cons c ds ih =>
    by_cases h : c = '0'
    · obtain ⟨k, ds', e, h'⟩ := ih
      exact ⟨k + 1, ds', by rw [h, e, List.replicate_succ, List.cons_append], h'⟩
    · exact ⟨0, c :: ds, rfl, by simpa using h⟩

theorem drop_zeros (k : ℕ) {t : List Char} (h : ∀ c, t.head? = some c → c ≠ '0') :
    (List.replicate k '0' ++ t).dropWhile (fun c => decide (c = '0')) = t := by
  induction k with
  | zero =>
    cases t with
    | nil => rfl
    | cons c t => simp [List.dropWhile_cons, h c rfl]
  | succ k ih => rw [List.replicate_succ, List.cons_append, List.dropWhile_cons]; simpa using ih

theorem value_zeros (k : ℕ) (t : List Char) : decimalValue (List.replicate k '0' ++ t) = decimalValue t := by
  induction k with
  | zero => rfl
  | succ k ih => rw [List.replicate_succ, List.cons_append, value_cons_zero, ih]

theorem extract_number (x : Numeral) (hx : x.Good) {rest : List Char} (h : Stop rest) :
    (extract (x.text ++ rest)).2 = rest ∧ strtod (extract (x.text ++ rest)).1 = some (x.digits, -(x.part.length : ℤ)) := by
  obtain ⟨hs, hn, hd, hf⟩ := hx
  obtain ⟨k, ds, e, hz⟩ := zeros_split x.whole
  have hd' : ∀ c ∈ ds, c.isDigit = true := fun c hc => hd c (by rw [e]; simp [hc])
  have ht : x.text ++ rest = x.sign ++ (x.whole ++ (fracText x.part ++ rest)) := by
    unfold Numeral.text fracText
    simp only [List.append_assoc]
  have hnz : ∀ c, (ds ++ (fracText x.part ++ rest)).head? = some c → c ≠ '0' := by
    intro c hc
    cases ds with
    | cons d ds => exact hz c hc
    | nil =>
      rw [List.nil_append] at hc
      unfold fracText at hc
      split at hc
      · rcases h with rfl | ⟨r, rfl⟩
        · simp at hc
        · simp at hc; subst hc; decide
      · simp at hc; subst hc; decide
  unfold extract
  rw [ht, takeSign_text hs hn hd]
  dsimp only
  rw [e, List.append_assoc, drop_zeros k hnz, collect_number ds x.part rest hd' hf h]
  refine ⟨rfl, ?_⟩
  have hlen : decide ((ds ++ (fracText x.part ++ rest)).length < (List.replicate k '0' ++ (ds ++ (fracText x.part ++ rest))).length) = decide (0 < k) := by
    rw [List.length_append (as := List.replicate k '0'), List.length_replicate]
    congr 1
    simp
  rw [hlen]
  have key : ∀ z : List Char, (z ++ ds ≠ []) → (∀ c ∈ z ++ ds, c.isDigit = true) → decimalValue (z ++ ds ++ x.part) = decimalValue (x.whole ++ x.part) →
      strtod (x.sign ++ z ++ (ds ++ fracText x.part)) = some (x.digits, -(x.part.length : ℤ)) := by
    intro z h1 h2 h3
    rw [List.append_assoc, ← List.append_assoc z, strtod_number hs h1 h2 hf, h3]
    rfl
  by_cases hk : 0 < k
  · rw [if_pos (by simpa using hk)]
    refine key ['0'] (by simp) ?_ ?_
    · intro c hc
      rcases List.mem_cons.1 hc with rfl | hc
      · decide
      · exact hd' c hc
    · rw [e, List.singleton_append, List.cons_append, value_cons_zero, List.append_assoc, value_zeros]
  · obtain rfl : k = 0 := by omega
    rw [if_neg (by simp)]
    rw [List.replicate_zero, List.nil_append] at e
    refine key [] (by rw [List.nil_append, ← e]; exact hn) (by simpa using hd') ?_
    rw [List.nil_append, e]

theorem text_head (x : Numeral) (hx : x.Good) (rest : List Char) : (x.text ++ rest).dropWhile isSpace = x.text ++ rest := by
  obtain ⟨hs, hn, hd, -⟩ := hx
  unfold Numeral.text
  rcases hs with e | e | e
  · cases hw : x.whole with
    | nil => exact absurd hw hn
    | cons c ds =>
      rw [e]
      have := (digit_not (hd c (by rw [hw]; simp))).1
      simp [List.dropWhile_cons, this]
  · rw [e]; simp [List.dropWhile_cons, isSpace]
  · rw [e]; simp [List.dropWhile_cons, isSpace]

theorem parse_list (rd : ℤ → ℤ → Option N) : ∀ (xs : List Numeral) (fuel : ℕ), (∀ x ∈ xs, x.Good) → xs.length ≤ fuel →
    ∀ ns : List N, xs.map (fun x => rd x.digits (-(x.part.length : ℤ))) = ns.map some → parseLoop rd fuel (commaList (xs.map Numeral.text)) = ns
  | [], fuel, _, _, ns, h => by
    obtain rfl : ns = [] := by simpa using h.symm
    cases fuel with
    | zero => rfl
    | succ fuel => rfl
  | [x], fuel + 1, hg, _, ns, h => by
    cases ns with
    | nil => simp at h
    | cons n ns =>
      simp only [List.map_cons, List.map_nil, List.cons.injEq] at h
      obtain ⟨h1, h2⟩ := h
      obtain rfl : ns = [] := by simpa using h2.symm
      obtain ⟨e1, e2⟩ := extract_number x (hg x (by simp)) (rest := []) (.inl rfl)
      have e3 := text_head x (hg x (by simp)) []
      rw [List.append_nil] at e1 e2 e3
      simp only [List.map_cons, List.map_nil, commaList, parseLoop, e3, e2, Option.bind_some, h1, e1, List.dropWhile_nil]
  | x :: y :: xs, fuel + 1, hg, hl, ns, h => by
    cases ns with
    | nil => simp at h
    | cons n ns =>
      rw [List.map_cons (l := y :: xs), List.map_cons (l := ns), List.cons.injEq] at h
      obtain ⟨h1, h2⟩ := h
      have ih := parse_list rd (y :: xs) fuel (fun z hz => hg z (by simp [hz])) (by simpa using hl) ns h2
      have ht : commaList ((x :: y :: xs).map Numeral.text) = x.text ++ ',' :: commaList ((y :: xs).map Numeral.text) := rfl
      obtain ⟨e1, e2⟩ := extract_number x (hg x (by simp)) (rest := ',' :: commaList ((y :: xs).map Numeral.text)) (.inr ⟨_, rfl⟩)
      have e3 := text_head x (hg x (by simp)) (',' :: commaList ((y :: xs).map Numeral.text))
      have e4 : (',' :: commaList ((y :: xs).map Numeral.text)).dropWhile isSpace = ',' :: commaList ((y :: xs).map Numeral.text) := by
        simp [List.dropWhile_cons, isSpace]
      rw [ht]
      simp only [parseLoop, e3, e2, Option.bind_some, h1, e1, e4, ih]

end Runner

/-- C85: the numbers of a comma separated list are read in their order, for numbers with digits before the point, perhaps a sign and a fraction,
that are in the range of a `double`. -/
theorem C85_numbers (rd : ℤ → ℤ → Option N) (xs : List Numeral) (hx : ∀ x ∈ xs, x.Good) (ns : List N)
    (hn : xs.map (fun x => rd x.digits (-(x.part.length : ℤ))) = ns.map some) : parseAsymptote rd (commaList (xs.map Numeral.text)) = ns := by
  refine parse_list rd xs _ hx ?_ ns hn
  have : ∀ l : List Numeral, (∀ x ∈ l, x.Good) → l.length ≤ (commaList (l.map Numeral.text)).length + 1 := by
    intro l
    induction l with
    | nil => simp
    | cons x l ih =>
      intro hl
      have h1 := ih (fun y hy => hl y (by simp [hy]))
      cases l with
      | nil => simp
      | cons y l =>
        have ht : commaList ((x :: y :: l).map Numeral.text) = x.text ++ ',' :: commaList ((y :: l).map Numeral.text) := rfl
        rw [ht, List.length_append, List.length_cons (a := ',')]
        have : (x :: y :: l).length = (y :: l).length + 1 := rfl
        omega
  exact this xs hx

/-- C85: the program with such a list calls every benchmark once for each number. -/
theorem C85_asymptote (regex : List Char → Option (List Char → Bool)) (rd : ℤ → ℤ → Option N) (isMatch : List Char → Bool)
    (hr : regex ".*".toList = some isMatch) (bs : List (List Char × B)) (hm : ∀ e ∈ bs, isMatch e.1 = true) (hn : (bs.map Prod.fst).Nodup)
    (name : List Char) (xs : List Numeral) (hx : ∀ x ∈ xs, x.Good) (ns : List N) (hne : ns ≠ [])
    (hns : xs.map (fun x => rd x.digits (-(x.part.length : ℤ))) = ns.map some) :
    ∃ chosen : List (List Char × B), program regex rd bs [name, "-asymptote=".toList ++ commaList (xs.map Numeral.text)] =
        .ok (some (chosen.flatMap fun e => ns.map fun n => { name := e.1, func := e.2, minEpoch := 909090, size := some n })) ∧
      chosen.Perm bs ∧ chosen.Pairwise fun e f => e.1.map Char.toNat < f.1.map Char.toNat := by
  set arg := "-asymptote=".toList ++ commaList (xs.map Numeral.text) with harg
  have hname : nameOf arg = "-asymptote".toList := by rw [harg]; simp [nameOf, List.takeWhile_cons]
  have htext : textOf arg = commaList (xs.map Numeral.text) := by rw [harg]; simp [textOf, List.dropWhile_cons]
  have hlast : ∀ k, lastText [arg] k = if k = "-asymptote".toList then some (commaList (xs.map Numeral.text)) else none := by
    intro k
    unfold lastText
    rw [List.reverse_singleton, List.find?_cons, hname]
    by_cases h : k = "-asymptote".toList
    · subst h; simp [htext]
    · rw [if_neg h, show ("-asymptote".toList == k) = false by simpa using fun e => h e.symm]
      rfl
  have hmain : Args.main [name, arg] = .ok (.run (commaList (xs.map Numeral.text)) 10 ".*".toList) := by
    have h0 : ¬ ∃ a ∈ [name, arg].drop 1, nameOf a = "-?".toList ∨ nameOf a = "-h".toList := by
      rintro ⟨a, ha, h⟩
      obtain rfl : a = arg := by simpa using ha
      rw [hname] at h
      revert h
      decide
    have := ((C80_main [name, arg]).2 h0).1 (by rw [List.drop_one, List.tail_cons, hlast, if_neg (by decide)])
    rw [this, List.drop_one, List.tail_cons, hlast, hlast, if_pos rfl, if_neg (by decide)]
    rfl
  obtain ⟨chosen, t, e1, e2, e3, -, e4⟩ := C85_calls regex ns 10 (by decide) _ isMatch hr bs
  have ht : t = 909090 := by
    have := e4 (by decide)
    omega
  subst ht
  refine ⟨chosen, ?_, ?_, e2⟩
  · unfold program
    rw [hmain]
    simp only [bind, Except.bind, pure, Except.pure]
    rw [C85_numbers rd xs hx ns hns, e1]
    simp only [if_neg hne]
  · have hnd : chosen.Nodup := e2.imp fun {e f} h he => by subst he; exact lt_irrefl _ h
    refine (List.perm_ext_iff_of_nodup hnd ((List.pairwise_map.1 hn).imp fun h he => h (by rw [he]))).2 fun e => ?_
    rw [e3, find_mem bs hn]
    exact ⟨fun h => h.1, fun h => ⟨h, hm e h⟩⟩

/-! ## Concrete cases -/

/-- A filter that matches the names ending with the given text, for the examples. -/
def endsWith (f : List Char) : Option (List Char → Bool) := some fun s => f.isSuffixOf s

/-- No rounding. -/
def toRd (m e : ℤ) : Option (ℤ × ℤ) := some (m, e)

/-- The hypotheses of `C85_numbers`: 10,-2.50,007. -/
example : (∀ x ∈ [Numeral.mk [] "10".toList [], ⟨['-'], "2".toList, "50".toList⟩, ⟨[], "007".toList, []⟩], x.Good) ∧
    commaList ([Numeral.mk [] "10".toList [], ⟨['-'], "2".toList, "50".toList⟩, ⟨[], "007".toList, []⟩].map Numeral.text) = "10,-2.50,007".toList ∧
    parseAsymptote toRd "10,-2.50,007".toList = [(10, 0), (-250, -2), (7, 0)] := by
  unfold Numeral.Good
  decide +kernel

/-- Anything else is not reported: a blank eats the first digit of the next number, and after an empty place the rest is dropped. -/
theorem C85_malformed : parseAsymptote toRd "10 20,30".toList = [(10, 0), (0, 0), (30, 0)] ∧ parseAsymptote toRd "10,,20".toList = [(10, 0)] ∧
    parseAsymptote toRd "x".toList = [] := by decide +kernel

/-- The hypotheses of `C85_order` and `C85_calls`: three benchmarks in two orders, a filter, and two numbers. -/
example : ([("a".toList, 1), ("b".toList, 2)].map Prod.fst).Nodup ∧
    program endsWith toRd [("bF".toList, 1), ("aP".toList, 2), ("aF".toList, 3)] ["x".toList, "-filter=F".toList, "-asymptote=10,20".toList] =
      .ok (some [⟨"aF".toList, 3, 909090, some (10, 0)⟩, ⟨"aF".toList, 3, 909090, some (20, 0)⟩, ⟨"bF".toList, 1, 909090, some (10, 0)⟩,
        ⟨"bF".toList, 1, 909090, some (20, 0)⟩]) ∧
    program endsWith toRd [("aF".toList, 3), ("bF".toList, 1), ("aP".toList, 2)] ["x".toList, "-filter=F".toList, "-asymptote=10,20".toList] =
      .ok (some [⟨"aF".toList, 3, 909090, some (10, 0)⟩, ⟨"aF".toList, 3, 909090, some (20, 0)⟩, ⟨"bF".toList, 1, 909090, some (10, 0)⟩,
        ⟨"bF".toList, 1, 909090, some (20, 0)⟩]) := by decide +kernel

/-- Different names are needed in `C85_order`: of two benchmarks with one name the first one registered is run. -/
theorem C85_same_name : program endsWith toRd [("a".toList, 1), ("a".toList, 2)] ["x".toList, "-filter=a".toList] =
      .ok (some [⟨"a".toList, 1, 909090, none⟩]) ∧
    program endsWith toRd [("a".toList, 2), ("a".toList, 1)] ["x".toList, "-filter=a".toList] =
      .ok (some [⟨"a".toList, 2, 909090, none⟩]) := by decide +kernel

/-- The hypotheses of `C85_repository` are met by the order in which the files list the benchmarks. -/
example : ((registered.map fun s => (s.toList, s)).map Prod.fst).Perm (registered.map String.toList) := by
  rw [List.map_map]
  exact List.Perm.refl _

end Utreexo
