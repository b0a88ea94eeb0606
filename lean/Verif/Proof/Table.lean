import Verif.Model.Table
import Verif.Proof.Alike

/-!
# The hash table holds a map
-/

set_option linter.unusedSectionVars false

namespace Utreexo
namespace Table

variable {K : Type} [DecidableEq K] {hash : K → ℕ}

/-- The table holds the entries of `m`, each in its bucket. -/
structure Holds (hash : K → ℕ) (t : Table K ℕ) (m : PosMap K) : Prop where
  pos : 0 < t.buckets.length
  uniq : PosMap.Uniq m
  perm : t.buckets.flatten.Perm m
  place : ∀ (i : ℕ) (c : List (K × ℕ)), t.buckets[i]? = some c → ∀ e ∈ c, hash e.1 % t.buckets.length = i
  count : t.count = m.length

theorem flatten_split {α : Type} : ∀ {l : List (List α)} {i : ℕ} {c : List α}, l[i]? = some c →
    ∃ a b, l.flatten = a ++ c ++ b ∧ ∀ d, (l.set i d).flatten = a ++ d ++ b
  | [], i, c, h => by simp at h
  | x :: l, 0, c, h => by
    simp only [List.getElem?_cons_zero, Option.some.injEq] at h
    subst h
    exact ⟨[], l.flatten, by simp, fun d => by simp⟩
  | x :: l, i + 1, c, h => by
    obtain ⟨a, b, h1, h2⟩ := flatten_split (l := l) (i := i) (c := c) (by simpa using h)
    exact ⟨x ++ a, b, by rw [List.flatten_cons, h1]; simp, fun d => by rw [List.set_cons_succ, List.flatten_cons, h2]; simp⟩

theorem mem_flatten_get {α : Type} {l : List (List α)} {e : α} (h : e ∈ l.flatten) : ∃ (i : ℕ) (c : List α), l[i]? = some c ∧ e ∈ c := by
  obtain ⟨c, hc, he⟩ := List.mem_flatten.1 h
  obtain ⟨i, hi⟩ := List.mem_iff_getElem?.1 hc
  exact ⟨i, c, hi, he⟩

variable {t : Table K ℕ} {m : PosMap K}

theorem Holds.chain (h : Holds hash t m) (k : K) : ∃ c, t.buckets[slot hash t k]? = some c ∧ vecGet t.buckets (slot hash t k) = .ok c ∧
    (∀ e : K × ℕ, e.1 = k → (e ∈ c ↔ e ∈ m)) ∧ c.Subperm m := by
  have hlt : slot hash t k < t.buckets.length := Nat.mod_lt _ h.pos
  have hg := List.getElem?_eq_getElem hlt
  refine ⟨_, hg, vecGet_ok hg, ?_, ?_⟩
  · intro e he
    rw [← h.perm.mem_iff]
    constructor
    · intro hm
      exact List.mem_flatten.2 ⟨_, List.getElem_mem hlt, hm⟩
    · intro hm
      obtain ⟨i, c, hi, hc⟩ := mem_flatten_get hm
      have := h.place i c hi e hc
      rw [he] at this
      have e1 : i = slot hash t k := this.symm
      subst e1
      rw [hg] at hi
      cases hi
      exact hc
  · obtain ⟨a, b, h1, -⟩ := flatten_split hg
    have h2 := h.perm
    rw [h1] at h2
    refine List.Subperm.trans (List.Sublist.subperm ?_) h2.subperm
    exact (List.sublist_append_right a _).trans (List.sublist_append_left _ b)

theorem chainFind_fst {c : List (K × ℕ)} : ∀ k : K, (chainFind c k).1 = PosMap.find c k := by
  induction c with
  | nil => intro k; rfl
  | cons e c ih =>
    intro k
    obtain ⟨x, v⟩ := e
    rw [chainFind, PosMap.find]
    split
    · rfl
    · exact ih k

theorem chainFind_snd_le (c : List (K × ℕ)) (k : K) : (chainFind c k).2 ≤ c.length := by
  induction c with
  | nil => simp [chainFind]
  | cons e c ih =>
    rw [chainFind]
    split
    · simp
    · simpa using ih

theorem chainFind_snd_of_none {c : List (K × ℕ)} {k : K} (h : (chainFind c k).1 = none) : (chainFind c k).2 = c.length := by
  induction c with
  | nil => rfl
  | cons e c ih =>
    rw [chainFind] at h ⊢
    split at h
    · cases h
    · rw [if_neg (by assumption)]
      simp only at h ⊢
      rw [ih h]
      rfl

theorem uniq_subperm {c m : PosMap K} (h : c.Subperm m) (hu : PosMap.Uniq m) : PosMap.Uniq c := by
  unfold PosMap.Uniq at *
  obtain ⟨c', h1, h2⟩ := h
  exact ((h1.map Prod.fst).nodup_iff).1 ((h2.map Prod.fst).nodup hu)

theorem mem_find {m : PosMap K} (hu : PosMap.Uniq m) (e : K × ℕ) : e ∈ m ↔ PosMap.find m e.1 = some e.2 := by
  induction m with
  | nil => simp [PosMap.find]
  | cons x m ih =>
    obtain ⟨a, v⟩ := x
    obtain ⟨k, w⟩ := e
    unfold PosMap.Uniq at hu
    rw [List.map_cons, List.nodup_cons] at hu
    rw [PosMap.find, List.mem_cons]
    by_cases ha : a = k
    · subst ha
      rw [if_pos rfl]
      constructor
      · rintro (h | h)
        · cases h; rfl
        · exact absurd (List.mem_map_of_mem (f := Prod.fst) h) hu.1
      · intro h
        cases h
        exact Or.inl rfl
    · rw [if_neg ha, ← ih hu.2]
      constructor
      · rintro (h | h)
        · cases h; exact absurd rfl ha
        · exact h
      · exact Or.inr

theorem Holds.find_eq (h : Holds hash t m) (k : K) {c : List (K × ℕ)} (hc : c.Subperm m) (hm : ∀ e : K × ℕ, e.1 = k → (e ∈ c ↔ e ∈ m)) :
    PosMap.find c k = PosMap.find m k := by
  apply Option.ext
  intro v
  have h1 := mem_find (uniq_subperm hc h.uniq) (k, v)
  have h2 := mem_find h.uniq (k, v)
  simp only at h1 h2
  rw [← h1, ← h2, hm _ rfl]

theorem Holds.find (h : Holds hash t m) (k : K) : ∃ n, n ≤ t.count ∧ Table.find hash t k = .ok (PosMap.find m k, n) := by
  obtain ⟨c, -, h1, h2, h3⟩ := h.chain k
  refine ⟨(chainFind c k).2, ?_, ?_⟩
  · rw [h.count]
    exact (chainFind_snd_le c k).trans h3.length_le
  · unfold Table.find
    rw [h1, ok_bind]
    congr 1
    exact Prod.ext (by rw [chainFind_fst, h.find_eq k h3 h2]) rfl

theorem empty_holds {b : ℕ} (hb : 0 < b) : Holds hash (empty b) [] := by
  refine ⟨by simpa [empty] using hb, by simp [PosMap.Uniq], ?_, ?_, rfl⟩
  · have : (List.replicate b ([] : List (K × ℕ))).flatten = [] := by
      rw [List.flatten_eq_nil_iff]
      intro l hl
      exact List.eq_of_mem_replicate hl
    show (List.replicate b ([] : List (K × ℕ))).flatten.Perm []
    rw [this]
  · intro i c hi e he
    have : c ∈ List.replicate b ([] : List (K × ℕ)) := List.mem_of_getElem? hi
    rw [List.eq_of_mem_replicate this] at he
    cases he

/-- The buckets hold the entries `l`, each in its place. -/
structure Placed (hash : K → ℕ) (bs : List (List (K × ℕ))) (l : List (K × ℕ)) : Prop where
  pos : 0 < bs.length
  perm : bs.flatten.Perm l
  place : ∀ (i : ℕ) (c : List (K × ℕ)), bs[i]? = some c → ∀ e ∈ c, hash e.1 % bs.length = i

theorem put_ok {bs : List (List (K × ℕ))} {l : List (K × ℕ)} (h : Placed hash bs l) (e : K × ℕ) :
    ∃ bs', put hash bs e = .ok bs' ∧ Placed hash bs' (e :: l) ∧ bs'.length = bs.length := by
  have hlt : hash e.1 % bs.length < bs.length := Nat.mod_lt _ h.pos
  have hg := List.getElem?_eq_getElem hlt
  refine ⟨bs.set (hash e.1 % bs.length) (e :: bs[hash e.1 % bs.length]), ?_, ⟨?_, ?_, ?_⟩, by simp⟩
  · unfold put
    dsimp only
    rw [vecGet_ok hg, ok_bind]
    unfold vecSet
    rw [if_pos hlt]
  · simpa using h.pos
  · obtain ⟨a, b, h1, h2⟩ := flatten_split hg
    rw [h2]
    refine List.Perm.trans ?_ (h.perm.cons e)
    rw [h1]
    simp only [List.cons_append, List.append_assoc]
    exact List.perm_middle
  · intro i c hi e' he'
    rw [List.length_set]
    rw [List.getElem?_set] at hi
    by_cases e1 : hash e.1 % bs.length = i
    · rw [if_pos e1, if_pos hlt] at hi
      cases hi
      rcases List.mem_cons.1 he' with rfl | he'
      · exact e1
      · rw [← e1]
        exact h.place _ _ hg e' he'
    · rw [if_neg e1] at hi
      exact h.place i c hi e' he'

theorem putAll_ok : ∀ (es : List (K × ℕ)) {bs : List (List (K × ℕ))} {l : List (K × ℕ)}, Placed hash bs l →
    ∃ bs', es.foldlM (put hash) bs = .ok bs' ∧ Placed hash bs' (es.reverse ++ l) ∧ bs'.length = bs.length
  | [], bs, l, h => ⟨bs, rfl, h, rfl⟩
  | e :: es, bs, l, h => by
    obtain ⟨bs1, h1, h2, h3⟩ := put_ok h e
    obtain ⟨bs2, k1, k2, k3⟩ := putAll_ok es h2
    refine ⟨bs2, ?_, ?_, k3.trans h3⟩
    · rw [List.foldlM_cons, h1, ok_bind, k1]
    · simpa using k2

theorem rehash_ok (h : Holds hash t m) {b : ℕ} (hb : 0 < b) : ∃ t', rehash hash t b = .ok t' ∧ Holds hash t' m ∧
    t'.buckets.length = b := by
  have h0 : Placed hash (List.replicate b ([] : List (K × ℕ))) [] := by
    have := empty_holds (hash := hash) hb
    exact ⟨this.pos, this.perm, this.place⟩
  obtain ⟨bs, h1, h2, h3⟩ := putAll_ok t.buckets.flatten h0
  refine ⟨{ t with buckets := bs }, ?_, ⟨h2.pos, h.uniq, ?_, h2.place, h.count⟩, by simpa using h3⟩
  · unfold rehash
    rw [h1, ok_bind]
    rfl
  · have := h2.perm
    rw [List.append_nil] at this
    exact this.trans ((List.reverse_perm _).trans h.perm)

variable {policy : ℕ → ℕ → ℕ}

theorem insert_ok (h : Holds hash t m) (hp : ∀ b n, 0 < policy b n) (k : K) (v : ℕ) :
    ∃ t' n, insert hash policy t k v = .ok (t', n) ∧ Holds hash t' (PosMap.insert m k v) ∧ n ≤ t.count ∧
      (PosMap.find m k = none → ∃ c, t.buckets[slot hash t k]? = some c ∧ n = c.length) := by
  obtain ⟨c, h1, h2, h3, h4⟩ := h.chain k
  have hf : (chainFind c k).1 = PosMap.find m k := by rw [chainFind_fst, h.find_eq k h4 h3]
  have hn : (chainFind c k).2 ≤ t.count := by
    rw [h.count]; exact (chainFind_snd_le c k).trans h4.length_le
  have hlt : slot hash t k < t.buckets.length := Nat.mod_lt _ h.pos
  unfold insert
  rw [h2, ok_bind]
  dsimp only
  cases ho : PosMap.find m k with
  | some w =>
    rw [ho] at hf
    rw [hf]
    dsimp only
    refine ⟨{ t with buckets := t.buckets.set (slot hash t k) (c.map fun e => if e.1 = k then (k, v) else e) }, _, ?_, ?_, hn,
      fun h => by cases h⟩
    · unfold vecSet
      rw [if_pos hlt]
      rfl
    · obtain ⟨a, b, g1, g2⟩ := flatten_split h1
      have hu : PosMap.Uniq (a ++ c ++ b) := by
        rw [← g1]
        unfold PosMap.Uniq
        exact ((h.perm.map Prod.fst).nodup_iff).2 h.uniq
      have hmem : (k, w) ∈ c := by
        rw [h3 (k, w) rfl]
        exact (mem_find h.uniq (k, w)).2 ho
      -- no entry with the key outside the bucket
      have hout : ∀ e ∈ a ++ b, e.1 ≠ k := by
        intro e he hk
        have : (a ++ c ++ b).Perm (c ++ (a ++ b)) := by
          rw [List.append_assoc]
          exact (List.perm_append_comm_assoc a c b)
        have hu' : ((c ++ (a ++ b)).map Prod.fst).Nodup := ((this.map Prod.fst).nodup_iff).1 hu
        rw [List.map_append, List.nodup_append] at hu'
        exact hu'.2.2 k (List.mem_map.2 ⟨_, hmem, rfl⟩) e.1 (List.mem_map_of_mem he) hk.symm
      have key : ∀ c : List (K × ℕ), PosMap.Uniq c → (k, w) ∈ c →
          (c.map fun e => if e.1 = k then (k, v) else e).Perm ((k, v) :: c.filter fun e => e.1 ≠ k) := by
        intro c
        induction c with
        | nil => intro _ h; cases h
        | cons e c ih =>
          intro hu hm
          unfold PosMap.Uniq at hu
          rw [List.map_cons, List.nodup_cons] at hu
          by_cases he : e.1 = k
          · have hno : ∀ x ∈ c, x.1 ≠ k := fun x hx hk => hu.1 (by rw [he, ← hk]; exact List.mem_map_of_mem hx)
            rw [List.map_cons, if_pos he, List.filter_cons, if_neg (by simpa using he)]
            refine List.Perm.cons _ ?_
            rw [List.map_congr_left (g := id) (fun x hx => by rw [if_neg (hno x hx)]; rfl), List.map_id,
              List.filter_eq_self.2 (fun x hx => by simpa using hno x hx)]
          · rw [List.map_cons, if_neg he, List.filter_cons, if_pos (by simpa using he)]
            refine ((ih hu.2 ?_).cons e).trans (List.Perm.swap _ _ _)
            rcases List.mem_cons.1 hm with h | h
            · rw [← h] at he; exact absurd rfl he
            · exact h
      refine ⟨by simpa using h.pos, h.uniq.insert k v, ?_, ?_, ?_⟩
      · dsimp only
        rw [g2]
        unfold PosMap.insert PosMap.erase
        have p1 := h.perm.filter (fun e => decide (e.1 ≠ k))
        rw [g1, List.filter_append, List.filter_append] at p1
        rw [List.filter_eq_self.2 (fun x hx => by simpa using hout x (by simp [hx])),
          (List.filter_eq_self (l := b)).2 (fun x hx => by simpa using hout x (by simp [hx]))] at p1
        refine List.Perm.trans ?_ (p1.cons (k, v))
        have p2 := key c (uniq_subperm h4 h.uniq) hmem
        refine List.Perm.trans ((p2.append_left a).append_right b) ?_
        simp only [List.append_assoc, List.cons_append]
        exact List.perm_middle
      · intro i c' hi e he
        dsimp only at hi ⊢
        rw [List.length_set]
        rw [List.getElem?_set] at hi
        by_cases e1 : slot hash t k = i
        · rw [if_pos e1, if_pos hlt] at hi
          cases hi
          obtain ⟨e0, he0, rfl⟩ := List.mem_map.1 he
          have := h.place _ _ h1 e0 he0
          rw [← e1]
          split
          · rfl
          · exact this
        · rw [if_neg e1] at hi
          exact h.place i c' hi e he
      · rw [h.count]
        have : (PosMap.insert m k v).length = m.length := by
          unfold PosMap.insert PosMap.erase
          have p1 := (key m h.uniq ((mem_find h.uniq (k, w)).2 ho)).length_eq
          rw [List.length_map] at p1
          exact p1.symm
        exact this.symm
  | none =>
    rw [ho] at hf
    rw [hf]
    dsimp only
    have hcn : (chainFind c k).2 = c.length := chainFind_snd_of_none hf
    have hstep : ∃ t1, (if policy t.buckets.length (t.count + 1) = t.buckets.length then pure t
        else rehash hash t (policy t.buckets.length (t.count + 1))) = .ok t1 ∧ Holds hash t1 m := by
      split
      · exact ⟨t, rfl, h⟩
      · obtain ⟨t1, k1, k2, -⟩ := rehash_ok h (hp t.buckets.length (t.count + 1))
        exact ⟨t1, k1, k2⟩
    obtain ⟨t1, k1, k2⟩ := hstep
    obtain ⟨bs, k3, k4, -⟩ := put_ok (hash := hash) ⟨k2.pos, k2.perm, k2.place⟩ (k, v)
    refine ⟨{ buckets := bs, count := t1.count + 1 }, (chainFind c k).2, ?_, ?_, hn, fun _ => ⟨c, h1, hcn⟩⟩
    · split at k1 <;> simp_all
    · have he : PosMap.erase m k = m := PosMap.erase_of_none ho
      refine ⟨k4.pos, h.uniq.insert k v, ?_, k4.place, ?_⟩
      · unfold PosMap.insert
        rw [he]
        exact k4.perm
      · unfold PosMap.insert
        rw [he, List.length_cons, k2.count]

theorem erase_ok (h : Holds hash t m) (k : K) : ∃ t', erase hash t k = .ok t' ∧ Holds hash t' (PosMap.erase m k) := by
  obtain ⟨c, h1, h2, h3, h4⟩ := h.chain k
  have hf : (chainFind c k).1 = PosMap.find m k := by rw [chainFind_fst, h.find_eq k h4 h3]
  have hlt : slot hash t k < t.buckets.length := Nat.mod_lt _ h.pos
  unfold erase
  rw [h2, ok_bind, hf]
  cases ho : PosMap.find m k with
  | none => exact ⟨t, rfl, by rw [PosMap.erase_of_none ho]; exact h⟩
  | some w =>
    dsimp only
    refine ⟨{ buckets := t.buckets.set (slot hash t k) (c.filter fun e => e.1 ≠ k), count := t.count - 1 }, ?_, ?_⟩
    · unfold vecSet
      rw [if_pos hlt]
      rfl
    · obtain ⟨a, b, g1, g2⟩ := flatten_split h1
      have hout : ∀ e ∈ t.buckets.flatten, e.1 = k → e ∈ c := by
        intro e he hk
        rw [h3 e hk]
        exact h.perm.mem_iff.1 he
      have hu : PosMap.Uniq (a ++ c ++ b) := by
        rw [← g1]
        unfold PosMap.Uniq
        exact ((h.perm.map Prod.fst).nodup_iff).2 h.uniq
      have hmem : (k, w) ∈ c := by
        rw [h3 (k, w) rfl]
        exact (mem_find h.uniq (k, w)).2 ho
      have hout : ∀ e ∈ a ++ b, e.1 ≠ k := by
        intro e he hk
        have : (a ++ c ++ b).Perm (c ++ (a ++ b)) := by
          rw [List.append_assoc]
          exact (List.perm_append_comm_assoc a c b)
        have hu' : ((c ++ (a ++ b)).map Prod.fst).Nodup := ((this.map Prod.fst).nodup_iff).1 hu
        rw [List.map_append, List.nodup_append] at hu'
        exact hu'.2.2 k (List.mem_map.2 ⟨_, hmem, rfl⟩) e.1 (List.mem_map_of_mem he) hk.symm
      refine ⟨by simpa using h.pos, h.uniq.erase k, ?_, ?_, ?_⟩
      · dsimp only
        rw [g2]
        unfold PosMap.erase
        have p1 := h.perm.filter (fun e => decide (e.1 ≠ k))
        rw [g1, List.filter_append, List.filter_append] at p1
        rwa [List.filter_eq_self.2 (fun x hx => by simpa using hout x (by simp [hx])),
          (List.filter_eq_self (l := b)).2 (fun x hx => by simpa using hout x (by simp [hx]))] at p1
      · intro i c' hi e he
        dsimp only at hi ⊢
        rw [List.length_set]
        rw [List.getElem?_set] at hi
        by_cases e1 : slot hash t k = i
        · rw [if_pos e1, if_pos hlt] at hi
          cases hi
          rw [← e1]
          exact h.place _ _ h1 e (List.mem_filter.1 he).1
        · rw [if_neg e1] at hi
          exact h.place i c' hi e he
      · rw [h.count]
        have := PosMap.length_erase h.uniq ho
        dsimp only
        omega

end Table
end Utreexo
