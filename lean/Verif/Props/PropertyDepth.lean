import Verif.Model.PropertyDepth
import Verif.Spec.PropertyDepth
import Verif.Props.PropertyAlias
/-!
# C138  How deep the calls of a property tree are nested
-/
namespace SoDa.Prop
open Spec Graph

/-! ### Reading -/

theorem chain_some {g : Graph} (d : Nat) : ∀ (p : Nat → Nat), (∀ k < d, Inside g (p (k + 1)) (p k)) → ∀ (c : Nat) (n : Node) r,
    g.fill c (p 0) n = some r → d < c := by
  induction d with
  | zero =>
    intro p _ c n r h
    cases c with
    | zero => cases h
    | succ c => omega
  | succ d ih =>
    intro p hp c n r h
    obtain ⟨c', m, r', h1, h2⟩ := inside_some (hp 0 (by omega)) h
    have := ih (fun k => p (k + 1)) (fun k hk => hp (k + 1) (by omega)) c' m r' h2
    omega

/-- Reading a file needs more than `calls` nested calls of `fillRecurse` exactly if `calls` times one node of the document is inside the other,
beginning at the top. -/
theorem C138_read (g : Graph) (calls top : Nat) (n : Node) :
    g.readFile calls top n = none ↔ ∃ p : Nat → Nat, p 0 = top ∧ ∀ k < calls, Inside g (p (k + 1)) (p k) := by
  have hr : g.readFile calls top n = none ↔ g.fill calls top n = none := by simp [Graph.readFile]
  rw [hr]
  constructor
  · exact none_chain calls top n
  · rintro ⟨p, rfl, hp⟩
    cases hf : g.fill calls (p 0) n with
    | none => rfl
    | some r => exact absurd (chain_some calls p hp calls n r hf) (Nat.lt_irrefl _)

/-! ### Printing -/

theorem listWithin_none {call : Node → Str → Option Str} {l : List Node} {ind : Str} :
    listWithin call l ind = none ↔ ∃ v ∈ l, v.terminal = false ∧ call v (ind ++ "  ".toList) = none := by
  induction l with
  | nil => simp [listWithin]
  | cons v vs ih =>
    rw [listWithin]
    simp only [List.mem_cons, exists_eq_or_imp, ← ih]
    cases hv : v.terminal with
    | true => simp
    | false =>
      cases hc : call v (ind ++ "  ".toList) with
      | none => simp
      | some a => simp

theorem dictWithin_none {call : Node → Str → Option Str} {l : List (Str × Node)} {ind : Str} :
    dictWithin call l ind = none ↔ ∃ v, (∃ k, (k, v) ∈ l) ∧ v.terminal = false ∧ call v (ind ++ "  ".toList) = none := by
  induction l with
  | nil => simp [dictWithin]
  | cons e vs ih =>
    obtain ⟨k, v⟩ := e
    rw [dictWithin]
    have split : (∃ v', (∃ k', (k', v') ∈ (k, v) :: vs) ∧ v'.terminal = false ∧ call v' (ind ++ "  ".toList) = none) ↔
        (v.terminal = false ∧ call v (ind ++ "  ".toList) = none) ∨ dictWithin call vs ind = none := by
      rw [ih]
      constructor
      · rintro ⟨v', ⟨k', h⟩, h1⟩
        rcases List.mem_cons.1 h with h | h
        · cases h; exact .inl h1
        · exact .inr ⟨v', ⟨k', h⟩, h1⟩
      · rintro (h | ⟨v', ⟨k', h⟩, h1⟩)
        · exact ⟨v, ⟨k, List.mem_cons_self⟩, h⟩
        · exact ⟨v', ⟨k', List.mem_cons_of_mem _ h⟩, h1⟩
    rw [split]
    cases hv : v.terminal with
    | true => simp
    | false =>
      cases hc : call v (ind ++ "  ".toList) with
      | none => simp
      | some a => simp

theorem dumpWithin_none (calls : Nat) : ∀ (n : Node) (ind : Str), dumpWithin calls n ind = none ↔ Deep calls n := by
  induction calls with
  | zero => intro n ind; exact ⟨fun _ => .here n, fun _ => rfl⟩
  | succ calls ih =>
    intro n ind
    rw [dumpWithin]
    cases ht : n.terminal with
    | true =>
      simp only [if_true, reduceCtorEq, false_iff]
      intro h
      cases h with
      | down hn _ _ _ => rw [ht] at hn; cases hn
    | false =>
      have hdeep : Deep (calls + 1) n ↔ (∃ v ∈ n.list, v.terminal = false ∧ Deep calls v) ∨
          ∃ v, (∃ k, (k, v) ∈ n.dict) ∧ v.terminal = false ∧ Deep calls v := by
        constructor
        · intro h
          cases h with
          | @down _ _ v _ hv hvt h =>
            rcases hv with hv | hv
            · exact .inl ⟨v, hv, hvt, h⟩
            · exact .inr ⟨v, hv, hvt, h⟩
        · rintro (⟨v, hv, h1, h2⟩ | ⟨v, hv, h1, h2⟩)
          · exact .down ht (.inl hv) h1 h2
          · exact .down ht (.inr hv) h1 h2
      have h1 : (∃ v ∈ n.list, v.terminal = false ∧ Deep calls v) ↔ listWithin (dumpWithin calls) n.list ind = none := by
        rw [listWithin_none]; simp only [ih]
      have h2 : (∃ v, (∃ k, (k, v) ∈ n.dict) ∧ v.terminal = false ∧ Deep calls v) ↔ dictWithin (dumpWithin calls) n.dict ind = none := by
        rw [dictWithin_none]; simp only [ih]
      rw [hdeep, h1, h2]
      have e1 : n.list.isEmpty = true → listWithin (dumpWithin calls) n.list ind = some [] := by
        intro h; rw [List.isEmpty_iff.1 h]; rfl
      have e2 : n.dict.isEmpty = true → dictWithin (dumpWithin calls) n.dict ind = some [] := by
        intro h; rw [List.isEmpty_iff.1 h]; rfl
      cases hl : n.list.isEmpty <;> cases hd : n.dict.isEmpty <;>
        cases hl' : listWithin (dumpWithin calls) n.list ind <;> cases hd' : dictWithin (dumpWithin calls) n.dict ind <;>
        simp_all

theorem listWithin_some {call : Node → Str → Option Str} {l : List Node} {ind s : Str}
    (hc : ∀ v ∈ l, ∀ i s, call v i = some s → s = v.dump i) (h : listWithin call l ind = some s) : s = dumpList l ind := by
  induction l generalizing s with
  | nil => cases h; simp [dumpList]
  | cons v vs ih =>
    rw [listWithin] at h
    rw [dumpList]
    split at h
    · cases h
    · rename_i a ha
      obtain ⟨b, hb, rfl⟩ := Option.map_eq_some_iff.1 h
      rw [ih (fun v hv => hc v (List.mem_cons_of_mem _ hv)) hb]
      congr 1
      split at ha
      · rename_i ht; cases ha; simp [ht]
      · rename_i ht; rw [hc v List.mem_cons_self _ _ ha]; simp [ht]

theorem dictWithin_some {call : Node → Str → Option Str} {l : List (Str × Node)} {ind s : Str}
    (hc : ∀ e ∈ l, ∀ i s, call e.2 i = some s → s = e.2.dump i) (h : dictWithin call l ind = some s) : s = dumpDict l ind := by
  induction l generalizing s with
  | nil => cases h; simp [dumpDict]
  | cons e vs ih =>
    obtain ⟨k, v⟩ := e
    rw [dictWithin] at h
    rw [dumpDict]
    split at h
    · cases h
    · rename_i a ha
      obtain ⟨b, hb, rfl⟩ := Option.map_eq_some_iff.1 h
      rw [ih (fun v hv => hc v (List.mem_cons_of_mem _ hv)) hb]
      congr 1
      split at ha
      · rename_i ht; cases ha; simp [ht]
      · rename_i ht
        obtain ⟨x, hx, rfl⟩ := Option.map_eq_some_iff.1 ha
        rw [hc (k, v) List.mem_cons_self _ _ hx]; simp [ht]

theorem dump_inner {n : Node} (h : n.terminal = false) (ind : Str) : n.dump ind =
    (if n.list.isEmpty then [] else "<<<PROPLIST>>>\n".toList ++ dumpList n.list ind) ++
    (if n.dict.isEmpty then [] else "<<<DICTIONARY>>>\n".toList ++ dumpDict n.dict ind) := by
  obtain ⟨val, t, list, dict⟩ := n
  cases h
  rw [Node.dump]
  rfl

theorem dump_value {n : Node} (h : n.terminal = true) (ind : Str) : n.dump ind = ind ++ n.val ++ "\n".toList := by
  obtain ⟨val, t, list, dict⟩ := n
  cases h
  rw [Node.dump]
  rfl

theorem dumpWithin_some (calls : Nat) : ∀ (n : Node) (ind s : Str), dumpWithin calls n ind = some s → s = n.dump ind := by
  induction calls with
  | zero => intro n ind s h; cases h
  | succ calls ih =>
    intro n ind s h
    rw [dumpWithin] at h
    cases ht : n.terminal with
    | true =>
      rw [if_pos ht] at h
      cases h
      rw [dump_value ht]
    | false =>
      rw [if_neg (by simp [ht])] at h
      rw [dump_inner ht]
      split at h
      · cases h
      · rename_i a ha
        obtain ⟨b, hb, rfl⟩ := Option.map_eq_some_iff.1 h
        congr 1
        · by_cases he : n.list.isEmpty = true
          · rw [if_pos he] at ha ⊢; cases ha; rfl
          · rw [if_neg he] at ha ⊢
            obtain ⟨x, hx, rfl⟩ := Option.map_eq_some_iff.1 ha
            rw [listWithin_some (fun v _ i s => ih v i s) hx]
        · by_cases he : n.dict.isEmpty = true
          · rw [if_pos he] at hb ⊢; cases hb; rfl
          · rw [if_neg he] at hb ⊢
            obtain ⟨x, hx, rfl⟩ := Option.map_eq_some_iff.1 hb
            rw [dictWithin_some (fun e _ i s => ih e.2 i s) hx]

/-- Printing needs more than `calls` nested calls of `dump` exactly if there is a way of `calls` steps down through nodes that are not values;
otherwise it prints what it prints without a limit. -/
theorem C138_dump (calls : Nat) (n : Node) (ind : Str) :
    (Deep calls n → dumpWithin calls n ind = none) ∧ (¬ Deep calls n → dumpWithin calls n ind = some (n.dump ind)) := by
  refine ⟨(dumpWithin_none calls n ind).2, fun h => ?_⟩
  cases hd : dumpWithin calls n ind with
  | none => exact absurd ((dumpWithin_none calls n ind).1 hd) h
  | some s => rw [dumpWithin_some calls n ind s hd]

/-! ### Looking up -/

/-- Looking up a path needs more than `calls` nested calls exactly if it begins with at least `calls` pieces that are keys of the node (of the node
itself, for all pieces); otherwise it finds what it finds without a limit.  So with one more call than pieces it never needs more. -/
theorem C138_lookup (r : Ref) (orig : Str) (throwEx : Bool) (calls : Nat) (ks : List Str) :
    lookWithin r orig throwEx calls ks =
      if calls ≤ ks.length ∧ ∀ k ∈ ks.take calls, (mapFind strLess k r.node.dict).isSome = true then none
      else some (getPropRecursive r orig throwEx ks) := by
  induction calls generalizing ks with
  | zero => simp [lookWithin]
  | succ calls ih =>
    cases ks with
    | nil => simp [lookWithin, getPropRecursive]
    | cons k ks =>
      rw [lookWithin, getPropRecursive]
      cases hk : (mapFind strLess k r.node.dict).isSome with
      | true => simp [ih, hk]
      | false => cases throwEx <;> simp [hk]

/-! ### What has been read can be printed -/

theorem mem_mapSet_or {V : Type} (k : Str) (v : V) (m : List (Str × V)) (x : Str × V) (h : x ∈ mapSet strLess k v m) :
    x.2 = v ∨ x ∈ m := by
  induction m with
  | nil => simp only [mapSet, List.mem_singleton] at h; exact .inl (h ▸ rfl)
  | cons e m ih =>
    obtain ⟨k', v'⟩ := e
    rw [mapSet] at h
    split at h
    · rcases List.mem_cons.1 h with h | h
      · exact .inl (h ▸ rfl)
      · exact .inr h
    · split at h
      · rcases List.mem_cons.1 h with h | h
        · exact .inr (h ▸ List.mem_cons_self)
        · rcases ih h with h | h
          · exact .inl h
          · exact .inr (List.mem_cons_of_mem _ h)
      · rcases List.mem_cons.1 h with h | h
        · exact .inl (h ▸ rfl)
        · exact .inr (List.mem_cons_of_mem _ h)

theorem deep_push {k : Nat} {n : Node} {s : Str} (h : Deep k (n.push (Node.new s true))) : Deep k n := by
  cases h with
  | here => exact .here n
  | @down _ _ v hn hv ht h =>
    rcases hv with hv | hv
    · rcases List.mem_append.1 hv with hv | hv
      · exact .down hn (.inl hv) ht h
      · rw [List.mem_singleton.1 hv] at ht; cases ht
    · exact .down hn (.inr hv) ht h

theorem deep_set {k : Nat} {n p : Node} {s : Str} (h : Deep k (n.set s p)) : Deep k n ∨ p.terminal = false ∧ ∃ j, k = j + 1 ∧ Deep j p := by
  cases h with
  | here => exact .inl (.here n)
  | @down j _ v hn hv ht h =>
    rcases hv with hv | ⟨q, hv⟩
    · exact .inl (.down hn (.inl hv) ht h)
    · rcases mem_mapSet_or _ _ _ _ hv with hv | hv
      · simp only at hv; subst hv; exact .inr ⟨ht, j, rfl, h⟩
      · exact .inl (.down hn (.inr ⟨q, hv⟩) ht h)

theorem deep_new {k : Nat} {s : Str} {b : Bool} (h : Deep k (Node.new s b)) : k = 0 := by
  cases h with
  | here => rfl
  | down _ hv _ _ =>
    rcases hv with hv | ⟨q, hv⟩
    · cases hv
    · cases hv

section grow
variable {g : Graph}

/-- A call makes the tree at most that deep. -/
def Grows (call : Nat → Node → Option (Node × Option YErr)) (c : Nat) : Prop :=
  ∀ i n r, call i n = some r → 0 < c ∧ ∀ k, Deep k r.1 → Deep k n ∨ k < c

theorem grow_list {call : Nat → Node → Option (Node × Option YErr)} {c : Nat} (hc : Grows call c) (l : List Nat) (n : Node) (r)
    (h : Graph.fillList call l n = some r) (k : Nat) (hk : Deep k r.1) : Deep k n ∨ k < c := by
  induction l generalizing n with
  | nil => cases h; exact .inl hk
  | cons y ys ih =>
    rw [fillList_cons] at h
    rcases hy : call y n with _ | ⟨n', _ | e⟩ <;> rw [hy] at h
    · cases h
    · rcases ih n' h with h' | h'
      · exact (hc y n _ hy).2 k h'
      · exact .inr h'
    · cases h
      exact (hc y n _ hy).2 k hk

theorem grow_entry {call : Nat → Node → Option (Node × Option YErr)} {c : Nat} (hc : Grows call c) (a v : Nat) (n : Node) (r)
    (h : g.fillEntry call a v n = some r) (k : Nat) (hk : Deep k r.1) : Deep k n ∨ k < c + 1 := by
  unfold Graph.fillEntry at h
  split at h
  · cases h; exact .inl hk
  · split at h
    · cases h; exact .inl hk
    · obtain ⟨x, hx, rfl⟩ := Option.map_eq_some_iff.1 h
      obtain ⟨h0, h1⟩ := hc _ _ _ hx
      rcases deep_set hk with h' | ⟨-, j, rfl, h'⟩
      · exact .inl h'
      · rcases h1 j h' with h2 | h2
        · have := deep_new h2; omega
        · omega
  · split at h
    · cases h; exact .inl hk
    · cases h
      rcases deep_set hk with h' | ⟨h', -⟩
      · exact .inl h'
      · cases h'
  · rcases grow_list hc _ _ _ h k hk with h' | h'
    · exact .inl h'
    · exact .inr (by omega)

theorem grow_entries {call : Nat → Node → Option (Node × Option YErr)} {c : Nat} (hc : Grows call c) (es : List (Nat × Nat)) (n : Node) (r)
    (h : g.fillEntries call es n = some r) (k : Nat) (hk : Deep k r.1) : Deep k n ∨ k < c + 1 := by
  induction es generalizing n with
  | nil => cases h; exact .inl hk
  | cons e es ih =>
    rw [fillEntries_cons] at h
    rcases hy : g.fillEntry call e.1 e.2 n with _ | ⟨n', _ | x⟩ <;> rw [hy] at h
    · cases h
    · rcases ih n' h with h' | h'
      · exact grow_entry hc _ _ _ _ hy k h'
      · exact .inr h'
    · cases h
      exact grow_entry hc _ _ _ _ hy k hk

theorem grow_fill (c : Nat) : Grows (g.fill c) c := by
  induction c with
  | zero => intro i n r h; cases h
  | succ c ih =>
    intro i n r h
    refine ⟨by omega, fun k hk => ?_⟩
    rw [Graph.fill] at h
    split at h
    · cases h; exact .inl hk
    · cases h; exact .inl (deep_push hk)
    · cases h; exact .inl hk
    · cases h; exact .inl hk
    · exact grow_entries ih _ _ _ h k hk

end grow

/-- If a file can be read with `calls` nested calls into a tree that can be printed with `calls` nested calls, the tree can be printed with as
many afterwards, even if the reading ended with an exception. -/
theorem C138_read_then_dump (g : Graph) (calls top : Nat) (n n' : Node) (o : ReadOut) (ind : Str)
    (h : g.readFile calls top n = some (n', o)) (hn : dumpWithin calls n ind = some (n.dump ind)) :
    dumpWithin calls n' ind = some (n'.dump ind) := by
  obtain ⟨⟨a, e⟩, h1, h2⟩ := Option.map_eq_some_iff.1 h
  have ha : a = n' := by
    cases e <;> (cases h2; rfl)
  subst ha
  refine (C138_dump calls a ind).2 fun hd => ?_
  rcases (grow_fill calls top n _ h1).2 calls hd with h' | h'
  · rw [(C138_dump calls n ind).1 h'] at hn; cases hn
  · exact absurd h' (Nat.lt_irrefl _)

/-! ### Examples -/

/-- `{base: {x: u}, l: [{x: u}, {x: u}], copy: {x: u}}`: two nested calls are needed and enough, to read and to print it. -/
example : exAlias.readFile 1 0 newTree = none ∧ ∃ n, exAlias.readFile 2 0 newTree = some (n, .normal) ∧
    dumpWithin 1 n [] = none ∧ dumpWithin 2 n [] = some (n.dump []) := by
  refine ⟨rfl, _, rfl, rfl, rfl⟩

/-- A circular document needs more than any number. -/
example (calls : Nat) : exCycle.readFile calls 0 newTree = none := by
  refine (C138_read _ _ _ _).2 ⟨fun _ => 0, rfl, fun _ _ => .value (es := [(1, 2)]) (k := 3) (es' := []) rfl ?_ ⟨_, rfl⟩ rfl⟩
  simp only [List.mem_singleton, forall_eq]
  exact ⟨fun _ => ⟨_, rfl⟩, by simp [exCycle], by simp [exCycle]⟩

/-- A path of three pieces, two of which are keys. -/
example : let r := Ref.root ((newTree.set "a".toList (Node.new [] false)).set "b".toList (Node.new "v".toList true))
    lookWithin r [] false 2 ["a".toList, "b".toList, "c".toList] = none ∧
    lookWithin r [] false 3 ["a".toList, "b".toList, "c".toList] = some (.ok none) := ⟨rfl, rfl⟩

end SoDa.Prop
