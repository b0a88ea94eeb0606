import Verif.Spec.Dict
import Verif.Proof.Table
import Verif.Props.Codec
import Verif.Props.Restore
import Verif.Props.Pollard

/-!
# Property theorems: the position map (C71)

The map works for every hash function of the leaves and every way of growing. Its order has no influence on any answer.
-/

set_option linter.unusedSectionVars false

namespace Utreexo
open Spec Equiv

section Claims

/-! ## The hash table -/

variable {K : Type} [DecidableEq K]

/-- A change of the list of entries. -/
def PosMap.change (m : PosMap K) (op : K × Option ℕ) : PosMap K :=
  match op.2 with
  | some v => m.insert op.1 v
  | none => m.erase op.1

namespace Table

variable {hash : K → ℕ} {policy : ℕ → ℕ → ℕ}

theorem change_ok {t : Table K ℕ} {m : PosMap K} (h : Holds hash t m) (hp : ∀ b n, 0 < policy b n) (op : K × Option ℕ) :
    ∃ t', change hash policy t op = .ok t' ∧ Holds hash t' (m.change op) := by
  obtain ⟨k, o⟩ := op
  cases o with
  | some v =>
    obtain ⟨t', n, h1, h2, -⟩ := insert_ok h hp k v
    refine ⟨t', ?_, h2⟩
    unfold change
    dsimp only
    rw [h1, ok_bind]
    rfl
  | none =>
    obtain ⟨t', h1, h2⟩ := erase_ok h k
    exact ⟨t', h1, h2⟩

theorem changes_ok (hp : ∀ b n, 0 < policy b n) : ∀ (ops : List (K × Option ℕ)) {t : Table K ℕ} {m : PosMap K}, Holds hash t m →
    ∃ t', changes hash policy ops t = .ok t' ∧ Holds hash t' (ops.foldl PosMap.change m)
  | [], t, m, h => ⟨t, rfl, h⟩
  | op :: ops, t, m, h => by
    obtain ⟨t1, h1, h2⟩ := change_ok h hp op
    obtain ⟨t2, h3, h4⟩ := changes_ok hp ops h2
    refine ⟨t2, ?_, h4⟩
    unfold changes at h3 ⊢
    rw [List.foldlM_cons, h1, ok_bind, h3]

theorem find_changes (ops : List (K × Option ℕ)) (k : K) : PosMap.find (ops.foldl PosMap.change []) k = lastValue ops k := by
  induction ops using List.reverseRecOn with
  | nil => rfl
  | append_singleton ops op ih =>
    rw [List.foldl_append]
    unfold lastValue at ih ⊢
    rw [List.reverse_append]
    simp only [List.foldl_cons, List.foldl_nil, List.reverse_cons, List.reverse_nil, List.nil_append, List.singleton_append,
      List.find?_cons]
    obtain ⟨x, o⟩ := op
    have hd : ¬ x = k → decide (x = k) = false := fun h => by simpa using h
    generalize ops.foldl PosMap.change [] = m at ih ⊢
    by_cases hx : x = k
    · subst hx
      cases o with
      | some v => simp [PosMap.change, PosMap.insert, PosMap.find]
      | none => simp [PosMap.change, PosMap.find_erase]
    · rw [hd hx, ← ih]
      cases o with
      | some v => exact (PosMap.find_insert _ _ _ _).trans (if_neg (Ne.symm hx))
      | none => exact (PosMap.find_erase _ _ _).trans (if_neg (Ne.symm hx))

end Table

/-- C71: the hash table is a map, whatever the hash function and however the number of buckets changes. After any changes nothing is
out of bounds, every key has the value of the last change about it, looking for it looks at no more entries than there are, and the
size is the number of the keys with a value. -/
theorem C71_table (hash : K → ℕ) (policy : ℕ → ℕ → ℕ) (hp : ∀ b n, 0 < policy b n) (b : ℕ) (hb : 0 < b) (ops : List (K × Option ℕ)) :
    ∃ t, Table.changes hash policy ops (Table.empty b) = .ok t ∧
      (∀ k, ∃ n, n ≤ t.count ∧ Table.find hash t k = .ok (lastValue ops k, n)) ∧
      ∀ S : List K, S.Nodup → (∀ k, k ∈ S ↔ (lastValue ops k).isSome) → t.count = S.length := by
  obtain ⟨t, h1, h2⟩ := Table.changes_ok hp ops (Table.empty_holds (hash := hash) hb)
  refine ⟨t, h1, fun k => ?_, fun S hS hk => ?_⟩
  · obtain ⟨n, h3, h4⟩ := h2.find k
    exact ⟨n, h3, by rw [h4, Table.find_changes]⟩
  · rw [h2.count, ← List.length_map (f := Prod.fst)]
    refine List.Perm.length_eq ((List.perm_ext_iff_of_nodup h2.uniq hS).2 fun k => ?_)
    rw [hk, ← Table.find_changes]
    rw [← not_iff_not, ← PosMap.find_none_iff]
    simp

/-- C71: the entries of the table are those of the list of entries of the model, in some order. -/
theorem C71_entries (hash : K → ℕ) (policy : ℕ → ℕ → ℕ) (hp : ∀ b n, 0 < policy b n) (b : ℕ) (hb : 0 < b) (ops : List (K × Option ℕ)) :
    ∃ t, Table.changes hash policy ops (Table.empty b) = .ok t ∧ t.buckets.flatten.Perm (ops.foldl PosMap.change []) := by
  obtain ⟨t, h1, h2⟩ := Table.changes_ok hp ops (Table.empty_holds (hash := hash) hb)
  exact ⟨t, h1, h2.perm⟩

/-- C71: `LeafHasher` is the number in the first eight bytes of the hash, on every machine. Two leaves have the same value iff these
bytes agree. -/
theorem C71_hash (big : Bool) (h h' : Hash32) : Table.leafHash big h = leValue (h.val.take 8) ∧
    (Table.leafHash big h = Table.leafHash big h' ↔ h.val.take 8 = h'.val.take 8) := by
  have key : ∀ x : Hash32, (x.val.take 8).length = 8 ∧ Table.leafHash big x = leValue (x.val.take 8) := by
    intro x
    have hl : (x.val.take 8).length = 8 := by rw [List.length_take, x.property]; rfl
    refine ⟨hl, ?_⟩
    have := (C35_readLE big (x.val.take 8) (x.val.drop 8)).2.2 hl
    rw [List.take_append_drop] at this
    exact this
  refine ⟨(key h).2, ?_⟩
  rw [(key h).2, (key h').2]
  exact ⟨fun e => File.leValue_inj _ _ ((key h).1.trans (key h').1.symm) e, fun e => by rw [e]⟩

namespace Table

/-- All entries in one bucket. -/
theorem Holds.crowded {hash : K → ℕ} {t : Table K ℕ} {m : PosMap K} (h : Holds hash t m) {k : K} (hm : ∀ e ∈ m, hash e.1 = hash k)
    {c : List (K × ℕ)} (hc : t.buckets[slot hash t k]? = some c) : c.length = m.length := by
  obtain ⟨a, b, h1, -⟩ := flatten_split hc
  have hall : ∀ e ∈ t.buckets.flatten, e ∈ c := by
    intro e he
    obtain ⟨i, d, hi, hd⟩ := mem_flatten_get he
    have := h.place i d hi e hd
    rw [hm e (h.perm.mem_iff.1 he)] at this
    have e1 : i = slot hash t k := this.symm
    subst e1
    rw [hc] at hi
    cases hi
    exact hd
  have hn : t.buckets.flatten.Nodup := by
    have := ((h.perm.map Prod.fst).nodup_iff).2 h.uniq
    exact List.Nodup.of_map _ this
  have h2 : c.Sublist t.buckets.flatten := by
    rw [h1]
    exact (List.sublist_append_right a _).trans (List.sublist_append_left _ b)
  rw [← h.perm.length_eq]
  exact le_antisymm h2.length_le ((hn.subperm hall).length_le)

theorem insertAll_crowded {hash : K → ℕ} {policy : ℕ → ℕ → ℕ} (hp : ∀ b n, 0 < policy b n) (w : ℕ) :
    ∀ (es : List (K × ℕ)) {t : Table K ℕ} {m : PosMap K} (s : ℕ), Holds hash t m → (∀ e ∈ m, hash e.1 = w) →
      (∀ e ∈ es, hash e.1 = w) → (es.map Prod.fst).Nodup → (∀ e ∈ es, PosMap.find m e.1 = none) → 2 * s + m.length = m.length * m.length →
      ∃ t' m' s', insertAll hash policy es t s = .ok (t', s') ∧ Holds hash t' m' ∧ (∀ e ∈ m', hash e.1 = w) ∧
        m'.length = m.length + es.length ∧ 2 * s' + m'.length = m'.length * m'.length ∧
        ∀ k, PosMap.find m k = none → k ∉ es.map Prod.fst → PosMap.find m' k = none
  | [], t, m, s, h, hm, _, _, _, hs => ⟨t, m, s, rfl, h, hm, rfl, hs, fun _ h _ => h⟩
  | e :: es, t, m, s, h, hm, he, hn, hf, hs => by
    obtain ⟨t1, n, h1, h2, -, h3⟩ := insert_ok h hp e.1 e.2
    have hfe := hf e (List.mem_cons_self ..)
    obtain ⟨c, h4, h5⟩ := h3 hfe
    have h6 := h.crowded (fun x hx => by rw [hm x hx, he e (List.mem_cons_self ..)]) h4
    rw [List.map_cons, List.nodup_cons] at hn
    have hl := PosMap.length_insert_new (v := e.2) hfe
    obtain ⟨t2, m2, s2, k1, k2, k3, k4, k5, k6⟩ := insertAll_crowded hp w es (s + n) h2 (by
        intro x hx
        unfold PosMap.insert at hx
        rcases List.mem_cons.1 hx with rfl | hx
        · exact he e (List.mem_cons_self ..)
        · exact hm x (List.mem_filter.1 hx).1)
      (fun x hx => he x (List.mem_cons_of_mem _ hx)) hn.2 (by
        intro x hx
        have hne : x.1 ≠ e.1 := fun hc => hn.1 (by rw [← hc]; exact List.mem_map_of_mem hx)
        rw [PosMap.find_insert, if_neg hne]
        exact hf x (List.mem_cons_of_mem _ hx)) (by rw [hl, h5, h6]; nlinarith)
    refine ⟨t2, m2, s2, ?_, k2, k3, by rw [k4, hl, List.length_cons]; omega, k5, ?_⟩
    · unfold insertAll
      rw [h1, ok_bind]
      exact k1
    · intro k hk hk'
      rw [List.map_cons, List.mem_cons, not_or] at hk'
      refine k6 k ?_ hk'.2
      rw [PosMap.find_insert, if_neg hk'.1, hk]

end Table

/-- C71: what the hash does not prevent. Leaves whose first eight bytes agree fill a single bucket, however the table grows: inserting
`n` of them looks at `n * (n - 1) / 2` entries, and looking for another one looks at all `n`. -/
theorem C71_flood (big : Bool) (policy : ℕ → ℕ → ℕ) (hp : ∀ b n, 0 < policy b n) (b : ℕ) (hb : 0 < b) (w : List Byte)
    (es : List (Hash32 × ℕ)) (hn : (es.map Prod.fst).Nodup) (hw : ∀ e ∈ es, e.1.val.take 8 = w) :
    ∃ t, Table.insertAll (Table.leafHash big) policy es (Table.empty b) 0 = .ok (t, es.length * (es.length - 1) / 2) ∧
      t.count = es.length ∧
      ∀ x : Hash32, x.val.take 8 = w → x ∉ es.map Prod.fst → Table.find (Table.leafHash big) t x = .ok (none, es.length) := by
  obtain ⟨t, m, s, h1, h2, h3, h4, h5, h6⟩ := Table.insertAll_crowded (hash := Table.leafHash big) hp (leValue w) es 0
    (Table.empty_holds hb) (fun e he => by cases he) (fun e he => by rw [(C71_hash big e.1 e.1).1, hw e he]) hn (fun e _ => rfl) rfl
  rw [List.length_nil, Nat.zero_add] at h4
  rw [h4] at h5
  refine ⟨t, ?_, by rw [h2.count, h4], ?_⟩
  · rw [h1]
    congr 2
    cases hl : es.length with
    | zero => rw [hl] at h5; simp at h5 ⊢; exact h5
    | succ n =>
      rw [hl] at h5
      rw [Nat.add_sub_cancel]
      have : (n + 1) * n = 2 * s := by nlinarith
      omega
  · intro x hx hxe
    obtain ⟨c, k1, k2, k3, k4⟩ := h2.chain x
    have hfn : PosMap.find m x = none := h6 x rfl hxe
    have hcn : (Table.chainFind c x).1 = none := by rw [Table.chainFind_fst, h2.find_eq x k4 k3, hfn]
    have hlen := h2.crowded (k := x) (fun e he => by rw [h3 e he, (C71_hash big x x).1, hx]) k1
    unfold Table.find
    rw [k2, ok_bind]
    show Except.ok _ = _
    congr 1
    exact Prod.ext hcn (by rw [Table.chainFind_snd_of_none hcn, hlen, h4])

/-! ## The order of the map -/

variable {H : Type} [DecidableEq H] [HashOps H]

theorem session_like {C N X : Type} {run : Acc H N X → C → Res (Answer H × Acc H N X)}
    (hr : ∀ c {a b : Acc H N X}, Acc.Alike a b → RelR (fun x y => x.1 = y.1 ∧ Acc.Alike x.2 y.2) (run a c) (run b c))
    {o o' : ℕ → PosMap H → PosMap H} (ho : ∀ i m, (o i m).Perm m) (ho' : ∀ i m, (o' i m).Perm m) :
    ∀ (cs : List C) (i : ℕ) {a b : Acc H N X}, Acc.Alike a b → session run o i cs a = session run o' i cs b
  | [], _, _, _, _ => rfl
  | c :: cs, i, a, b, h => by
    have hl : Acc.Alike { a with posmap := o i a.posmap } { b with posmap := o' i b.posmap } := by
      refine ⟨h.num, h.roots, h.ext, ?_, ?_⟩
      · unfold PosMap.Uniq
        exact (((ho i a.posmap).map Prod.fst).nodup_iff).2 h.map.uniq
      · exact (ho i _).trans (h.map.perm.trans (ho' i _).symm)
    have := hr c hl
    unfold session
    cases h1 : run { a with posmap := o i a.posmap } c <;> cases h2 : run { b with posmap := o' i b.posmap } c <;>
      rw [h1, h2] at this <;> simp only [RelR] at this
    · rw [this]
    · dsimp only
      rw [session_like hr ho ho' cs (i + 1) this.2, this.1]

/-- C71: the answers of a forest do not depend on the order of its map. Two executions of the same calls, of which each puts the
map in an arbitrary order before every call, give the same answers and end with the same fault, if any. -/
theorem C71_forest (f : RamForest H) (hu : (f.posmap.map Prod.fst).Nodup) (calls : List (ForestCall H))
    (order order' : ℕ → PosMap H → PosMap H) (h : ∀ i m, (order i m).Perm m) (h' : ∀ i m, (order' i m).Perm m) :
    session ForestCall.run order 0 calls f = session ForestCall.run order' 0 calls f := by
  refine session_like ?_ h h' calls 0 ⟨rfl, rfl, rfl, .refl hu⟩
  intro c a b hab
  cases c with
  | modify ls ts =>
    refine .bind (Ram.modify_like hab ls ts) ?_
    rintro ⟨ok, u, x⟩ ⟨ok', u', y⟩ ⟨h1, h2, h3⟩
    dsimp only at h1 h2 h3 ⊢
    subst h1 h2
    exact ⟨rfl, h3⟩
  | undo u =>
    refine .bind (Ram.undo_like hab u) ?_
    rintro ⟨ok, x⟩ ⟨ok', y⟩ ⟨h1, h3⟩
    dsimp only at h1 h3 ⊢
    subst h1
    exact ⟨rfl, h3⟩
  | prove hs =>
    refine .bind (.same (Acc.prove_like Ram.blind hab hs)) ?_
    rintro x _ rfl
    exact ⟨rfl, hab⟩
  | verify p hs => exact ⟨by rw [Ram.verify_like hab], hab⟩
  | equal g =>
    refine .bind (.same ?_) (fun x y e => ⟨by rw [e], hab⟩)
    unfold Ram.equal Ram.roots
    rw [Acc.rootHashes_like Ram.blind hab, hab.num]
    have : PosMap.equal a.posmap g.posmap = PosMap.equal b.posmap g.posmap := by
      unfold PosMap.equal
      rw [hab.map.length]
      congr 1
      exact Bool.eq_iff_iff.2 (by simp only [List.all_eq_true, hab.map.perm.mem_iff])
    rw [this]
  | roots =>
    refine .bind (.same (Acc.rootHashes_like Ram.blind hab)) ?_
    rintro x _ rfl
    exact ⟨rfl, hab⟩

/-- C71: the same for a pollard. -/
theorem C71_pollard (p : Pollard H) (hu : (p.posmap.map Prod.fst).Nodup) (calls : List (PollardCall H))
    (order order' : ℕ → PosMap H → PosMap H) (h : ∀ i m, (order i m).Perm m) (h' : ∀ i m, (order' i m).Perm m) :
    session PollardCall.run order 0 calls p = session PollardCall.run order' 0 calls p := by
  refine session_like ?_ h h' calls 0 ⟨rfl, rfl, rfl, .refl hu⟩
  intro c a b hab
  cases c with
  | modify ls ts =>
    refine .bind (Pol.modify_like hab ls ts) ?_
    rintro ⟨ok, x⟩ ⟨ok', y⟩ ⟨h1, h3⟩
    dsimp only at h1 h3 ⊢
    subst h1
    exact ⟨rfl, h3⟩
  | prove hs =>
    refine .bind (.same (Acc.prove_like Pol.blind hab hs)) ?_
    rintro x _ rfl
    exact ⟨rfl, hab⟩
  | verify p hs =>
    refine .bind (Pol.verify_like hab p hs) ?_
    rintro ⟨ok, x⟩ ⟨ok', y⟩ ⟨h1, h3⟩
    dsimp only at h1 h3 ⊢
    subst h1
    exact ⟨rfl, h3⟩
  | prune => exact .bind (Pol.pruneAll_like hab) fun x y e => ⟨rfl, e⟩
  | roots =>
    refine .bind (.same (Acc.rootHashes_like Pol.blind hab)) ?_
    rintro x _ rfl
    exact ⟨rfl, hab⟩
  | cached =>
    refine ⟨?_, hab⟩
    show Answer.number (Pol.numCachedLeaves a) = Answer.number (Pol.numCachedLeaves b)
    unfold Pol.numCachedLeaves
    rw [hab.roots, hab.ext]

end Claims

/-! ## Concrete cases -/

section Examples

/-- Two buckets that grow to five; the hash is the last digit, so that 13 and 23 lie in one bucket. The value of 13 is replaced and
23 is erased. -/
example : (do
    let t ← Table.changes (fun k => k % 10) (fun b n => if 2 < n then 5 else b)
      [(13, some 7), (23, some 8), (31, some 9), (13, some 4), (23, none), (40, none)] (Table.empty 2)
    return (t.buckets, t.count, ← Table.find (fun k => k % 10) t 13, ← Table.find (fun k => k % 10) t 23) : Res _) =
    .ok ([[], [(31, 9)], [], [(13, 4)], []], 2, (some 4, 1), (none, 1)) := by decide +kernel

/-- Three hashes with the same first eight bytes, and a fourth. -/
def floodLeaf (b : Byte) : Hash32 := ⟨List.replicate 8 0xab#8 ++ List.replicate 24 b, by simp⟩

example : ([(floodLeaf 1#8, 0), (floodLeaf 2#8, 1), (floodLeaf 3#8, 2)].map Prod.fst).Nodup ∧
    (∀ e ∈ [(floodLeaf 1#8, 0), (floodLeaf 2#8, 1), (floodLeaf 3#8, 2)], e.1.val.take 8 = List.replicate 8 0xab#8) ∧
    floodLeaf 4#8 ∉ [(floodLeaf 1#8, 0), (floodLeaf 2#8, 1), (floodLeaf 3#8, 2)].map Prod.fst ∧
    (do
      let (t, n) ← Table.insertAll (Table.leafHash true) (fun _ n => 10 * n) [(floodLeaf 1#8, 0), (floodLeaf 2#8, 1), (floodLeaf 3#8, 2)]
        (Table.empty 1) 0
      return (n, t.count, ← Table.find (Table.leafHash true) t (floodLeaf 4#8)) : Res _) = .ok (3, 3, (none, 3)) := by decide +kernel

attribute [local instance] toyOps

/-- The numbers in an answer. -/
def Spec.Answer.shown : Answer ℕ → List ℕ
  | .flag ok => [ok.toNat]
  | .batch ok u => [ok.toNat, (u.map fun u => u.positions.length).getD 0]
  | .proof p => (p.map fun p => p.targets ++ p.hashes).getD []
  | .hashes l => l
  | .number n => [n]

/-- A session of a forest whose map is turned round before every call. -/
example : (session ForestCall.run (fun _ m => m.reverse) 0
      [.modify toyLeaves [], .prove [16, 12], .modify [(21, false)] [1, 5], .verify ⟨[], [], []⟩ [21, 17], .prove [21], .roots]
      (Ram.mk 0)).1.map Answer.shown =
    [[1, 0], [5, 1, 11, 15, 13141], [1, 2], [1], [5, 17], [11282411, 17211]] := by decide +kernel

/-- The same for a pollard that remembers its leaves and is pruned. -/
example : (session PollardCall.run (fun _ m => m.reverse) 0
      [.modify (toyLeaves.map fun l => (l.1, true)) [], .cached, .prove [16, 12], .verify ⟨[1, 5], [1, 5], [11, 15, 13141]⟩ [12, 16],
        .modify [(21, true)] [1, 5], .prune, .cached, .prove [21], .roots] (Pol.mk 0)).1.map Answer.shown =
    [[1], [7], [5, 1, 11, 15, 13141], [1], [1], [1], [0], [], [11282411, 17211]] := by decide +kernel

end Examples

end Utreexo
