import Verif.Proof.MailBoxRounds
import Verif.Props.Session
import Mathlib.Algebra.Group.Nat.Even
/-!
The invariant of the mailbox test program (`Model/MailBoxTest.lean`), in terms of the sequential
history of the mailbox and of what the threads do next.
-/
namespace SoDa.MailTest
open Spec
open Mail (Event Box Sub exec waiting)

/-! ### The numbers the program computes -/

/-- The threads whose messages thread `t` gets. -/
def peers (p : Params) (t : Nat) : Finset Nat :=
  if p.noEcho then (Finset.range p.threads).erase t else Finset.range p.threads

/-- The program's `int`s do not overflow. -/
structure Params.Fits (p : Params) : Prop where
  threads : p.threads < 2147483648
  msgs : p.msgs < 2147483648
  product : p.msgs * p.threads < 2147483648

variable {p : Params} {t : Nat}

theorem peers_lt {u : Nat} (h : u ∈ peers p t) : u < p.threads := by
  unfold peers at h
  split at h
  · exact Finset.mem_range.1 (Finset.mem_of_mem_erase h)
  · exact Finset.mem_range.1 h

/-- How many threads send messages to a thread. -/
def Params.senders (p : Params) : Nat := p.threads - (if p.noEcho then 1 else 0)

theorem peers_card (h : t < p.threads) : (peers p t).card = p.senders := by
  unfold peers Params.senders
  split
  · rw [Finset.card_erase_of_mem (Finset.mem_range.2 h), Finset.card_range]
  · simp

theorem expectedMsgs_eq (hf : p.Fits) (h : t < p.threads) : p.expectedMsgs = p.msgs * p.senders := by
  obtain ⟨h1, h2, h3⟩ := hf
  obtain ⟨n, hn⟩ : ∃ n, p.threads = n + 1 := ⟨p.threads - 1, by omega⟩
  unfold Params.expectedMsgs Params.senders
  cases p.noEcho
  · simp
  · simp only [if_true]
    rw [hn, Nat.add_sub_cancel, Nat.mul_add, Nat.mul_one]
    rw [hn, Nat.mul_add, Nat.mul_one] at h3
    omega

theorem even_half (a m : Nat) : a * (m * (m - 1)) / 2 = a * (m * (m - 1) / 2) := by
  obtain ⟨k, hk⟩ := (Nat.even_mul_pred_self m).two_dvd
  rw [hk, Nat.mul_left_comm, Nat.mul_div_cancel_left _ (by decide), Nat.mul_div_cancel_left _ (by decide)]

/-- Computing modulo `W` makes no difference if everything is small. -/
theorem small_sum (V W a m : Nat) (hV : V + 1 = W) (hm : m ≤ V) (h : a * (m * (m - 1)) < W)
    (h' : m * (m - 1) < W) :
    (a * (((m + V) % W * (((m + V) % W + 1) % W)) % W)) % W / 2 = a * (m * (m - 1) / 2) := by
  rcases Nat.eq_zero_or_pos m with rfl | hm0
  · have e1 : (0 + V) % W = V := by rw [Nat.zero_add]; exact Nat.mod_eq_of_lt (by omega)
    rw [e1, hV, Nat.mod_self]
    simp
  · have e1 : (m + V) % W = m - 1 := by
      rw [show m + V = m - 1 + W by omega, Nat.add_mod_right]
      exact Nat.mod_eq_of_lt (by omega)
    have e2 : (m - 1 + 1) % W = m := by
      rw [show m - 1 + 1 = m by omega]
      exact Nat.mod_eq_of_lt (by omega)
    rw [e1, e2, Nat.mul_comm (m - 1) m, Nat.mod_eq_of_lt h', Nat.mod_eq_of_lt h, even_half]

theorem small_product {p : Params} (hf : p.Fits) :
    p.msgs * (p.msgs - 1) < 2147483648 * 2147483648 ∧
    p.senders * (p.msgs * (p.msgs - 1)) < 2147483648 * 2147483648 := by
  obtain ⟨h1, h2, h3⟩ := hf
  have hle : p.senders ≤ p.threads := by unfold Params.senders; omega
  have e3 : p.msgs - 1 < 2147483648 := by omega
  constructor
  · exact Nat.mul_lt_mul'' h2 e3
  · calc p.senders * (p.msgs * (p.msgs - 1)) ≤ p.threads * (p.msgs * (p.msgs - 1)) := Nat.mul_le_mul_right _ hle
      _ = (p.msgs * p.threads) * (p.msgs - 1) := by ring
      _ < _ := Nat.mul_lt_mul'' h3 e3

theorem expectedSum_eq (hf : p.Fits) (h : t < p.threads) :
    p.expectedSum = p.senders * (p.msgs * (p.msgs - 1) / 2) := by
  obtain ⟨e1, e2⟩ := small_product hf
  obtain ⟨h1, h2, h3⟩ := hf
  have hs : (p.threads + 18446744073709551616 - (if p.noEcho then 1 else 0)) % 18446744073709551616 = p.senders := by
    unfold Params.senders
    split <;> omega
  have hle : p.senders ≤ p.threads := by unfold Params.senders; omega
  unfold Params.expectedSum
  rw [hs]
  exact small_sum 18446744073709551615 18446744073709551616 _ _ (by omega) (by omega) (by omega) (by omega)

/-! ### Where a thread is -/

/-- The subscription a thread holds. -/
def Loc.sub? : Loc → Option Sub
  | .ready s | .inBarrier s | .send s _ _ | .recv s _ _ _ | .extra s | .count s | .leave s _ => some s
  | _ => none

/-- How many messages a thread has sent. -/
def Loc.puts (p : Params) : Loc → Nat
  | .send _ tr i => tr * p.msgs + i
  | .recv _ tr _ _ => (tr + 1) * p.msgs
  | .extra _ | .count _ | .leave _ _ | .done _ => p.trials * p.msgs
  | _ => 0

/-- How many messages a thread has received. -/
def Loc.gets (p : Params) : Loc → Nat
  | .send _ tr _ => tr * p.expectedMsgs
  | .recv _ tr i _ => tr * p.expectedMsgs + i
  | .extra _ | .count _ | .leave _ _ | .done _ => p.trials * p.expectedMsgs
  | _ => 0

/-- How many calls on the mailbox a thread has completed, not counting a `get` that found nothing. -/
def Loc.calls (p : Params) : Loc → Nat
  | .ready _ | .inBarrier _ => 1
  | .send _ tr i => 1 + tr * (p.msgs + p.expectedMsgs) + i
  | .recv _ tr i _ => 1 + tr * (p.msgs + p.expectedMsgs) + p.msgs + i
  | .extra _ | .count _ => 1 + p.trials * (p.msgs + p.expectedMsgs)
  | .leave _ _ => 2 + p.trials * (p.msgs + p.expectedMsgs)
  | .done _ => 3 + p.trials * (p.msgs + p.expectedMsgs)
  | _ => 0

/-- A call by `t` that is not a `get` that found nothing. -/
def usefulBy (t : Nat) (e : Event Msg) : Bool := decide (e.thread = t ∧ e.resp ≠ .msg none)

/-- Bounds; and nothing has gone wrong. -/
def Loc.Ok (p : Params) : Loc → Prop
  | .send _ tr i => i ≤ p.msgs ∧ (tr < p.trials ∨ tr = p.trials ∧ i = 0)
  | .recv _ tr i sum => tr < p.trials ∧ i ≤ p.expectedMsgs ∧ sum ≤ i * p.msgs
  | .leave _ c => c = 0
  | .done c => c = 0
  | .crashed => False
  | _ => True

theorem Loc.puts_le {l : Loc} (h : l.Ok p) : l.puts p ≤ p.trials * p.msgs := by
  cases l <;> simp only [Loc.puts, Loc.Ok] at * <;> try omega
  · rename_i s tr i
    rcases h.2 with h2 | ⟨rfl, rfl⟩
    · have := Nat.mul_le_mul_right p.msgs (show tr + 1 ≤ p.trials by omega)
      rw [Nat.add_mul] at this
      omega
    · omega
  · exact Nat.mul_le_mul_right _ (by omega)

/-- Which thread got a subscription. -/
def subThread (e : Event Msg) : Option Nat :=
  match e.resp with
  | .sub _ => some e.thread
  | _ => none

theorem nodup_inj {α β : Type} {f : α → Option β} {l : List α} (h : (l.filterMap f).Nodup) {x y : α}
    (hx : x ∈ l) (hy : y ∈ l) {b : β} (hfx : f x = some b) (hfy : f y = some b) : x = y := by
  induction l with
  | nil => simp at hx
  | cons a l ih =>
    have hin : ∀ z ∈ l, f z = some b → b ∈ l.filterMap f := fun z hz hf => List.mem_filterMap.2 ⟨z, hz, hf⟩
    rw [List.filterMap_cons] at h
    rcases List.mem_cons.1 hx with rfl | hx' <;> rcases List.mem_cons.1 hy with rfl | hy'
    · rfl
    · rw [hfx] at h
      exact absurd (hin y hy' hfy) (List.nodup_cons.1 h).1
    · rw [hfy] at h
      exact absurd (hin x hx' hfx) (List.nodup_cons.1 h).1
    · refine ih ?_ hx' hy'
      split at h
      · exact h
      · exact (List.nodup_cons.1 h).2

/-- The invariant. -/
structure Main (p : Params) (this : Mail.Addr) (tr : List (Event Msg)) (loc : Fin p.threads → Loc) : Prop where
  ok : ∀ t, (loc t).Ok p
  quiet : ∀ t : Fin p.threads, loc t = .start → ∀ e ∈ tr, e.thread ≠ t.val
  held : ∀ (t : Fin p.threads) s, (loc t).sub? = some s →
    s.box = this ∧ (⟨t.val, .subscribe, .sub s⟩ : Event Msg) ∈ tr ∧ ∀ e ∈ tr, Ends s.idx e = false
  once : (tr.filterMap subThread).Nodup
  small : ∀ e ∈ tr, e.thread < p.threads
  clear : ∀ e ∈ tr, ∀ i, Clears i e = false
  nonnull : NoNull tr
  puts : ∀ e ∈ tr, ∀ m s, e.op = .put m s → ∃ v sb, m = some ⟨e.thread, v⟩ ∧
    s = (if p.noEcho then some sb else none) ∧ e.resp = .done ∧ (⟨e.thread, .subscribe, .sub sb⟩ : Event Msg) ∈ tr
  gets : ∀ e ∈ tr, ∀ s, e.op = .get (some s) → (⟨e.thread, .subscribe, .sub s⟩ : Event Msg) ∈ tr
  log : ∀ t : Fin p.threads, byS t.val (sentLog tr) = script p.msgs t.val ((loc t).puts p)
  frm : ∀ x ∈ sentLog tr, x.frm < p.threads
  rounds : Rounds p.threads p.msgs (sentLog tr)
  got : ∀ (t : Fin p.threads) s, (⟨t.val, .subscribe, .sub s⟩ : Event Msg) ∈ tr →
    (receivedEver s.idx tr).length = (loc t).gets p
  sum : ∀ (t : Fin p.threads) s k i sum, loc t = .recv s k i sum →
    ((receivedEver s.idx tr).map (·.v)).sum = sum + p.senders * (k * (p.msgs * (p.msgs - 1) / 2))
  ended : ∀ (t : Fin p.threads) c, loc t = .done c → ∃ s, (⟨t.val, .subscribe, .sub s⟩ : Event Msg) ∈ tr ∧
    ∃ e ∈ tr, Ends s.idx e = true
  work : ∀ t : Fin p.threads, tr.countP (usefulBy t.val) = (loc t).calls p

variable {this : Mail.Addr} {name : Str} {tr : List (Event Msg)} {loc : Fin p.threads → Loc} {b : Box Msg}

theorem main_init : Main p this [] fun _ => .start := by
  refine ⟨fun _ => trivial, by simp, by simp [Loc.sub?], by simp, by simp, by simp, by simp [NoNull], by simp, by simp, ?_,
    by simp [sentLog], rounds_nil _ _, by simp, by simp, by simp, by simp [Loc.calls]⟩
  intro t; simp [sentLog, byS, script, Loc.puts]

theorem ids_nodup (k : Mail.Known tr b) : (idsGiven tr).Nodup := by
  obtain ⟨n, -, h⟩ := k.ids
  rw [h]
  exact List.nodup_range.map Int.ofNat_injective

/-- Different threads have different ids. -/
theorem same_thread (k : Mail.Known tr b) {a c : Nat} {s s' : Sub}
    (h1 : (⟨a, .subscribe, .sub s⟩ : Event Msg) ∈ tr) (h2 : (⟨c, .subscribe, .sub s'⟩ : Event Msg) ∈ tr)
    (he : s.idx = s'.idx) : a = c ∧ s = s' := by
  have := nodup_inj (b := s.idx) (ids_nodup k) h1 h2 rfl (by simp [he])
  simpa using this

theorem Main.same_sub (h : Main p this tr loc) {a : Nat} {s s' : Sub}
    (h1 : (⟨a, .subscribe, .sub s⟩ : Event Msg) ∈ tr) (h2 : (⟨a, .subscribe, .sub s'⟩ : Event Msg) ∈ tr) : s = s' := by
  have := nodup_inj (f := subThread) (b := a) h.once h1 h2 rfl rfl
  simpa using this

/-- What is meant for a thread: the messages of its peers. -/
theorem Main.meant (h : Main p this tr loc) (k : Mail.Known tr b) {t : Nat} {s : Sub}
    (hs : (⟨t, .subscribe, .sub s⟩ : Event Msg) ∈ tr) : meantFor s.idx tr = ofA (peers p t) (sentLog tr) := by
  unfold meantFor ofA sentLog
  rw [List.filter_filterMap]
  refine List.filterMap_congr fun e he => ?_
  have hlt := h.small e he
  have hp := h.puts e he
  obtain ⟨u, o, r⟩ := e
  cases o with
  | put m sb =>
    obtain ⟨v, sb', hm, hsb, hr, hsub⟩ := hp m sb rfl
    simp only at hm hsb hr hsub hlt
    subst hm hsb hr
    cases hne : p.noEcho
    · simp [sendsTo, sends, peers, hne, hlt, Option.filter]
    · simp only [sendsTo, sends, peers, hne, if_true]
      by_cases hu : u = t
      · subst hu
        simp [h.same_sub hsub hs, Option.filter]
      · have : sb'.idx ≠ s.idx := fun he => hu (same_thread k hsub hs he).1
        simp [this, hu, hlt, Option.filter]
  | _ => rfl

/-- What a thread has received, and what waits for it. -/
def AllMessages (tr : List (Event Msg)) (b : Box Msg) : Prop :=
  ∀ i q, waiting b i = some q → receivedEver i tr ++ q.filterMap id = meantFor i tr

theorem Main.len_le (h : Main p this tr loc) {t : Nat} :
    (ofA (peers p t) (sentLog tr)).length ≤ (peers p t).card * (p.trials * p.msgs) := by
  rw [length_split _ _ ofA_mem, ← Nat.nsmul_eq_mul, ← Finset.sum_const]
  refine Finset.sum_le_sum fun u hu => ?_
  rw [ofA_byS hu]
  have := h.log ⟨u, peers_lt hu⟩
  simp only at this
  rw [this, script_length]
  exact Loc.puts_le (h.ok _)

/-! ### Local steps -/

/-- Changing what a thread does next without changing what it has done. -/
theorem Main.change (h : Main p this tr loc) (t : Fin p.threads) (l : Loc)
    (hok : l.Ok p) (hst : l ≠ .start) (hsub : l.sub? = (loc t).sub?) (hp : l.puts p = (loc t).puts p)
    (hg : l.gets p = (loc t).gets p) (hdone : ∀ c, l ≠ .done c) (hcalls : l.calls p = (loc t).calls p)
    (hsum : ∀ s k i sum, l = .recv s k i sum → ((receivedEver s.idx tr).map (·.v)).sum =
      sum + p.senders * (k * (p.msgs * (p.msgs - 1) / 2))) :
    Main p this tr (setLoc loc t.val fun _ => l) := by
  have hself : setLoc loc t.val (fun _ => l) t = l := by simp [setLoc]
  have hne : ∀ u, u ≠ t → setLoc loc t.val (fun _ => l) u = loc u := by
    intro u hu
    simp [setLoc, Fin.val_inj, hu]
  refine ⟨?_, ?_, ?_, h.once, h.small, h.clear, h.nonnull, h.puts, h.gets, ?_, h.frm, h.rounds, ?_, ?_, ?_, ?_⟩
  · intro u
    by_cases e : u = t
    · subst e; rw [hself]; exact hok
    · rw [hne u e]; exact h.ok u
  · intro u hu
    by_cases e : u = t
    · subst e; rw [hself] at hu; exact absurd hu hst
    · rw [hne u e] at hu; exact h.quiet u hu
  · intro u s hs
    by_cases e : u = t
    · subst e; rw [hself, hsub] at hs; exact h.held _ s hs
    · rw [hne u e] at hs; exact h.held u s hs
  · intro u
    by_cases e : u = t
    · subst e; rw [hself, hp]; exact h.log _
    · rw [hne u e]; exact h.log u
  · intro u s hs
    by_cases e : u = t
    · subst e; rw [hself, hg]; exact h.got _ s hs
    · rw [hne u e]; exact h.got u s hs
  · intro u s k i sum hu
    by_cases e : u = t
    · subst e; rw [hself] at hu; exact hsum s k i sum hu
    · rw [hne u e] at hu; exact h.sum u s k i sum hu
  · intro u c hu
    by_cases e : u = t
    · subst e; rw [hself] at hu; exact absurd hu (hdone c)
    · rw [hne u e] at hu; exact h.ended u c hu
  · intro u
    by_cases e : u = t
    · subst e; rw [hself, hcalls]; exact h.work _
    · rw [hne u e]; exact h.work u

/-- What a live subscriber has received is the first part of what its peers have sent. -/
theorem Main.received_prefix (h : Main p this tr loc) (k : Mail.Known tr b) (ha : AllMessages tr b) {t : Fin p.threads}
    {s : Sub} (hs : (loc t).sub? = some s) :
    ∃ q, waiting b s.idx = some q ∧ (∀ m ∈ q, m.isSome = true) ∧
      receivedEver s.idx tr ++ q.filterMap id = ofA (peers p t.val) (sentLog tr) := by
  obtain ⟨-, hsub, hend⟩ := h.held t s hs
  cases hw : waiting b s.idx with
  | none => exact absurd hw ((k.live s.idx).2 ⟨⟨_, hsub, by simp [Subscribes]⟩, hend⟩)
  | some q => exact ⟨q, rfl, k.nonnull h.nonnull _ _ hw, by rw [ha _ _ hw, h.meant k hsub]⟩

theorem Main.script_of (h : Main p this tr loc) {t : Nat} :
    ∀ u ∈ peers p t, ∃ c, byS u (sentLog tr) = script p.msgs u c :=
  fun u hu => ⟨_, h.log ⟨u, peers_lt hu⟩⟩

/-- The test on line 85 succeeds. -/
theorem Main.sum_right (h : Main p this tr loc) (hf : p.Fits) (k : Mail.Known tr b) (ha : AllMessages tr b)
    {t : Fin p.threads} {s : Sub} {j sum : Nat} (hl : loc t = .recv s j p.expectedMsgs sum) :
    p.expectedSum = sum := by
  obtain ⟨q, -, -, hq⟩ := h.received_prefix k ha (t := t) (s := s) (by rw [hl]; rfl)
  obtain ⟨-, hsub, -⟩ := h.held t s (by rw [hl]; rfl)
  have hlen := h.got t s hsub
  rw [hl] at hlen
  simp only [Loc.gets, expectedMsgs_eq hf t.isLt] at hlen
  have := rounds_sum (k := j + 1) (A := peers p t.val) (fun u hu => peers_lt hu) h.rounds h.script_of ⟨_, hq⟩
    (by rw [hlen, peers_card t.isLt]; ring)
  rw [h.sum t s j _ sum hl, peers_card t.isLt] at this
  rw [expectedSum_eq hf t.isLt]
  have e : p.senders * ((j + 1) * (p.msgs * (p.msgs - 1) / 2)) =
      p.senders * (p.msgs * (p.msgs - 1) / 2) + p.senders * (j * (p.msgs * (p.msgs - 1) / 2)) := by ring
  omega

/-- The statements between the calls. -/
theorem Main.silent (h : Main p this tr loc) (hf : p.Fits) (k : Mail.Known tr b) (ha : AllMessages tr b)
    {t : Fin p.threads} {l : Loc} (hl : (loc t).silent p = some l) :
    Main p this tr (setLoc loc t.val fun _ => l) := by
  have hok := h.ok t
  cases hlt : loc t <;> rw [hlt] at hl hok <;> simp only [Loc.silent] at hl <;>
    try (exfalso; simp at hl; done)
  case send s j i =>
    simp only [Loc.Ok] at hok
    split at hl
    · next hj =>
      split at hl
      · simp at hl
      · next hi =>
        cases hl
        have hi : i = p.msgs := by omega
        subst hi
        refine h.change t _ ⟨hj, by omega, by omega⟩ (by simp) (by rw [hlt]; rfl) (by rw [hlt]; simp [Loc.puts]; ring)
          (by rw [hlt]; simp [Loc.gets]) (by simp) (by rw [hlt]; simp [Loc.calls]) ?_
        intro s' k' i' sum' he
        injection he with e1 e2 e3 e4
        subst e1 e2 e3 e4
        obtain ⟨q, -, -, hq⟩ := h.received_prefix k ha (t := t) (s := s) (by rw [hlt]; rfl)
        obtain ⟨-, hsub, -⟩ := h.held t s (by rw [hlt]; rfl)
        have hlen := h.got t s hsub
        rw [hlt] at hlen
        simp only [Loc.gets, expectedMsgs_eq hf t.isLt] at hlen
        have := rounds_sum (k := j) (A := peers p t.val) (fun u hu => peers_lt hu) h.rounds h.script_of ⟨_, hq⟩
          (by rw [hlen, peers_card t.isLt])
        rw [this, peers_card t.isLt]
        omega
    · next hj =>
      cases hl
      obtain ⟨rfl, rfl⟩ : j = p.trials ∧ i = 0 := by omega
      exact h.change t _ trivial (by simp) (by rw [hlt]; rfl) (by rw [hlt]; rfl) (by rw [hlt]; rfl) (by simp)
        (by rw [hlt]; rfl) (by simp)
  case recv s j i sum =>
    simp only [Loc.Ok] at hok
    split at hl
    · simp at hl
    · next hi =>
      have hi : i = p.expectedMsgs := by omega
      subst hi
      rw [if_neg (by simpa using h.sum_right hf k ha hlt)] at hl
      cases hl
      refine h.change t _ ⟨by omega, by omega⟩ (by simp) (by rw [hlt]; rfl) (by rw [hlt]; rfl)
        (by rw [hlt]; simp [Loc.gets]; ring) (by simp) (by rw [hlt]; simp only [Loc.calls]; ring) (by simp)

/-- Entering and leaving the barrier. -/
theorem Main.enter (h : Main p this tr loc) {t : Fin p.threads} {s : Sub} (hl : loc t = .ready s) :
    Main p this tr (setLoc loc t.val fun _ => .inBarrier s) :=
  h.change t _ trivial (by simp) (by rw [hl]; rfl) (by rw [hl]; rfl) (by rw [hl]; rfl) (by simp)
    (by rw [hl]; rfl) (by simp)

theorem Main.pass (h : Main p this tr loc) {t : Fin p.threads} {s : Sub} (hl : loc t = .inBarrier s) :
    Main p this tr (setLoc loc t.val fun _ => .send s 0 0) :=
  h.change t _ ⟨by omega, by omega⟩ (by simp) (by rw [hl]; rfl) (by rw [hl]; simp [Loc.puts])
    (by rw [hl]; simp [Loc.gets]) (by simp) (by rw [hl]; simp [Loc.calls]) (by simp)

/-! ### Calls -/

theorem setLoc_self {n : Nat} (loc : Fin n → Loc) (t : Fin n) (f : Loc → Loc) : setLoc loc t.val f t = f (loc t) := by
  simp [setLoc]

theorem setLoc_ne {n : Nat} (loc : Fin n → Loc) {t u : Fin n} (f : Loc → Loc) (h : u ≠ t) :
    setLoc loc t.val f u = loc u := by simp [setLoc, Fin.val_inj, h]

theorem sentLog_snoc (tr : List (Event Msg)) (e : Event Msg) :
    sentLog (tr ++ [e]) = sentLog tr ++ (sends e).toList := by
  unfold sentLog
  rw [List.filterMap_append]
  cases h : sends e <;> simp [h]

theorem receivedEver_snoc (i : Int) (tr : List (Event Msg)) (e : Event Msg) :
    receivedEver i (tr ++ [e]) = receivedEver i tr ++ (gives i e).toList := by
  unfold receivedEver
  rw [List.filterMap_append]
  cases h : gives i e <;> simp [h]

/-- A call that neither subscribes nor sends. -/
theorem Main.other (h : Main p this tr loc) {t : Fin p.threads} {o : Mail.Op Msg} {r : Mail.Resp Msg} {f : Loc → Loc}
    (hsend : ∀ m s, o ≠ .put m s) (hnsub : ∀ s, r ≠ .sub s) (hclear : ∀ s, o ≠ .clear s)
    (hget : ∀ s, o = .get (some s) → (⟨t.val, .subscribe, .sub s⟩ : Event Msg) ∈ tr)
    (hok : (f (loc t)).Ok p) (hst : f (loc t) ≠ .start)
    (hsub : ∀ s, (f (loc t)).sub? = some s → (loc t).sub? = some s ∧ Ends s.idx (⟨t.val, o, r⟩ : Event Msg) = false)
    (hends : ∀ u, u ≠ t → ∀ s, (loc u).sub? = some s → Ends s.idx (⟨t.val, o, r⟩ : Event Msg) = false)
    (hputs : (f (loc t)).puts p = (loc t).puts p)
    (hgot : ∀ s, (⟨t.val, .subscribe, .sub s⟩ : Event Msg) ∈ tr →
      (loc t).gets p + (gives s.idx (⟨t.val, o, r⟩ : Event Msg)).toList.length = (f (loc t)).gets p)
    (hgives : ∀ (u : Fin p.threads), u ≠ t → ∀ s, (⟨u.val, .subscribe, .sub s⟩ : Event Msg) ∈ tr →
      gives s.idx (⟨t.val, o, r⟩ : Event Msg) = none)
    (hsum : ∀ s k i sum, f (loc t) = .recv s k i sum →
      ((receivedEver s.idx (tr ++ [⟨t.val, o, r⟩])).map (·.v)).sum =
        sum + p.senders * (k * (p.msgs * (p.msgs - 1) / 2)))
    (hdone : ∀ c, f (loc t) = .done c → ∃ s, (⟨t.val, .subscribe, .sub s⟩ : Event Msg) ∈ tr ∧
      Ends s.idx (⟨t.val, o, r⟩ : Event Msg) = true)
    (hcalls : (loc t).calls p + (if r = .msg none then 0 else 1) = (f (loc t)).calls p) :
    Main p this (tr ++ [⟨t.val, o, r⟩]) (setLoc loc t.val f) := by
  have hlog : sentLog (tr ++ [⟨t.val, o, r⟩]) = sentLog tr := by
    rw [sentLog_snoc]
    cases o <;> simp [sends]
    exact absurd rfl (hsend _ _)
  have hin : ∀ u s, (⟨u, .subscribe, .sub s⟩ : Event Msg) ∈ tr ++ [⟨t.val, o, r⟩] ↔
      (⟨u, .subscribe, .sub s⟩ : Event Msg) ∈ tr := by
    intro u s
    rw [List.mem_append, List.mem_singleton]
    constructor
    · rintro (h | h)
      · exact h
      · injection h with _ _ h3
        exact absurd h3.symm (hnsub s)
    · exact Or.inl
  refine ⟨?_, ?_, ?_, ?_, ?_, ?_, ?_, ?_, ?_, ?_, ?_, ?_, ?_, ?_, ?_, ?_⟩
  · intro u
    by_cases e : u = t
    · subst e; rw [setLoc_self]; exact hok
    · rw [setLoc_ne _ _ e]; exact h.ok u
  · intro u hu e' he'
    by_cases e : u = t
    · subst e; rw [setLoc_self] at hu; exact absurd hu hst
    · rw [setLoc_ne _ _ e] at hu
      rw [List.mem_append, List.mem_singleton] at he'
      rcases he' with he' | rfl
      · exact h.quiet u hu e' he'
      · simpa [Fin.val_inj] using Ne.symm e
  · intro u s hs
    have key : (loc u).sub? = some s ∧ Ends s.idx (⟨t.val, o, r⟩ : Event Msg) = false := by
      by_cases e : u = t
      · subst e; rw [setLoc_self] at hs; exact hsub s hs
      · rw [setLoc_ne _ _ e] at hs; exact ⟨hs, hends u e s hs⟩
    obtain ⟨h1, h2, h3⟩ := h.held u s key.1
    refine ⟨h1, (hin _ _).2 h2, ?_⟩
    intro e' he'
    rw [List.mem_append, List.mem_singleton] at he'
    rcases he' with he' | rfl
    · exact h3 e' he'
    · exact key.2
  · have : subThread (⟨t.val, o, r⟩ : Event Msg) = none := by
      cases r <;> simp [subThread]
      exact absurd rfl (hnsub _)
    rw [List.filterMap_append]
    simpa [this] using h.once
  · intro e' he'
    rw [List.mem_append, List.mem_singleton] at he'
    rcases he' with he' | rfl
    · exact h.small e' he'
    · exact t.isLt
  · intro e' he' i
    rw [List.mem_append, List.mem_singleton] at he'
    rcases he' with he' | rfl
    · exact h.clear e' he' i
    · cases o <;> simp [Clears]
      exact absurd rfl (hclear _)
  · intro e' he' s
    rw [List.mem_append, List.mem_singleton] at he'
    rcases he' with he' | rfl
    · exact h.nonnull e' he' s
    · exact hsend _ _
  · intro e' he' m s ho
    rw [List.mem_append, List.mem_singleton] at he'
    rcases he' with he' | rfl
    · obtain ⟨v, sb, h1, h2, h3, h4⟩ := h.puts e' he' m s ho
      exact ⟨v, sb, h1, h2, h3, (hin _ _).2 h4⟩
    · exact absurd ho (hsend _ _)
  · intro e' he' s ho
    rw [List.mem_append, List.mem_singleton] at he'
    rcases he' with he' | rfl
    · exact (hin _ _).2 (h.gets e' he' s ho)
    · exact (hin _ _).2 (hget s ho)
  · intro u
    rw [hlog]
    by_cases e : u = t
    · subst e; rw [setLoc_self, hputs]; exact h.log _
    · rw [setLoc_ne _ _ e]; exact h.log u
  · rw [hlog]; exact h.frm
  · rw [hlog]; exact h.rounds
  · intro u s hs
    have hs' := (hin _ _).1 hs
    rw [receivedEver_snoc, List.length_append, h.got u s hs']
    by_cases e : u = t
    · subst e; rw [setLoc_self]; exact hgot s hs'
    · rw [setLoc_ne _ _ e, hgives u e s hs']; rfl
  · intro u s k i sum hu
    by_cases e : u = t
    · subst e; rw [setLoc_self] at hu; exact hsum s k i sum hu
    · rw [setLoc_ne _ _ e] at hu
      obtain ⟨-, hs, -⟩ := h.held u s (by rw [hu]; rfl)
      rw [receivedEver_snoc, hgives u e s hs]
      simpa using h.sum u s k i sum hu
  · intro u c hu
    by_cases e : u = t
    · subst e
      rw [setLoc_self] at hu
      obtain ⟨s, hs, hx⟩ := hdone c hu
      exact ⟨s, (hin _ _).2 hs, _, by simp, hx⟩
    · rw [setLoc_ne _ _ e] at hu
      obtain ⟨s, hs, e', he', hx⟩ := h.ended u c hu
      exact ⟨s, (hin _ _).2 hs, e', List.mem_append.2 (Or.inl he'), hx⟩
  · intro u
    rw [List.countP_append, List.countP_singleton, h.work u]
    by_cases e : u = t
    · subst e
      rw [setLoc_self, ← hcalls]
      by_cases hr : r = .msg none <;> simp [usefulBy, hr]
    · rw [setLoc_ne _ _ e]
      have : t.val ≠ u.val := by simpa [Fin.val_inj] using Ne.symm e
      simp [usefulBy, this]

/-- Subscribing. -/
theorem Main.subscribe (h : Main p this tr loc) (hf : p.Fits) (k : Mail.Known tr b) {t : Fin p.threads}
    (hl : loc t = .start) : exec this b .subscribe = ({ b.setQueue b.counter [] with counter := b.counter + 1 },
        .sub ⟨this, b.counter⟩) ∧
      Main p this (tr ++ [⟨t.val, .subscribe, .sub ⟨this, b.counter⟩⟩])
        (setLoc loc t.val fun l => l.after (.sub ⟨this, b.counter⟩)) := by
  have hq := h.quiet t hl
  have hcount : b.counter < 2147483647 := by
    obtain ⟨n, hn, hids⟩ := k.ids
    have e1 : (tr.filterMap subThread).length = n := by
      have : (tr.filterMap subThread).length = (idsGiven tr).length := by
        unfold idsGiven
        clear * -
        induction tr with
        | nil => rfl
        | cons e tr ih =>
          rw [List.filterMap_cons, List.filterMap_cons]
          obtain ⟨u, o, r⟩ := e
          cases r <;> simpa [subThread] using ih
      rw [this, hids]; simp
    have e2 : (tr.filterMap subThread).toFinset ⊆ (Finset.range p.threads).erase t.val := by
      intro u hu
      rw [List.mem_toFinset, List.mem_filterMap] at hu
      obtain ⟨e, he, hu⟩ := hu
      have : e.thread = u := by
        unfold subThread at hu
        split at hu <;> simp_all
      subst this
      exact Finset.mem_erase.2 ⟨hq e he, Finset.mem_range.2 (h.small e he)⟩
    have e3 := Finset.card_le_card e2
    rw [List.toFinset_card_of_nodup h.once, e1, Finset.card_erase_of_mem (Finset.mem_range.2 t.isLt),
      Finset.card_range] at e3
    have := hf.threads
    have := t.isLt
    omega
  have hfresh : ∀ u s, (⟨u, .subscribe, .sub s⟩ : Event Msg) ∈ tr → s.idx < b.counter := by
    intro u s hs
    exact ((k.mentioned s.idx).1 ⟨_, hs, by simp [Subscribes]⟩).2
  have hin : ∀ u s, (⟨u, .subscribe, .sub s⟩ : Event Msg) ∈ tr →
      (⟨u, .subscribe, .sub s⟩ : Event Msg) ∈ tr ++ [⟨t.val, .subscribe, .sub ⟨this, b.counter⟩⟩] :=
    fun u s hs => List.mem_append.2 (Or.inl hs)
  have hlog : sentLog (tr ++ [⟨t.val, .subscribe, .sub ⟨this, b.counter⟩⟩]) = sentLog tr := by
    rw [sentLog_snoc]; simp [sends]
  have hrec : ∀ i, receivedEver i (tr ++ [⟨t.val, .subscribe, .sub ⟨this, b.counter⟩⟩]) = receivedEver i tr := by
    intro i; rw [receivedEver_snoc]; simp [gives]
  have hends : ∀ i, Ends i (⟨t.val, .subscribe, .sub ⟨this, b.counter⟩⟩ : Event Msg) = false := by
    intro i; simp [Ends]
  have hafter : (loc t).after (.sub ⟨this, b.counter⟩) = .ready ⟨this, b.counter⟩ := by rw [hl]; rfl
  refine ⟨?_, ?_⟩
  · simp only [exec, Box.subscribe]
    rw [if_neg (by omega)]
    rfl
  refine ⟨?_, ?_, ?_, ?_, ?_, ?_, ?_, ?_, ?_, ?_, ?_, ?_, ?_, ?_, ?_, ?_⟩
  · intro u
    by_cases e : u = t
    · subst e; rw [setLoc_self, hafter]; trivial
    · rw [setLoc_ne _ _ e]; exact h.ok u
  · intro u hu e' he'
    by_cases e : u = t
    · subst e; rw [setLoc_self, hafter] at hu; simp at hu
    · rw [setLoc_ne _ _ e] at hu
      rw [List.mem_append, List.mem_singleton] at he'
      rcases he' with he' | rfl
      · exact h.quiet u hu e' he'
      · simpa [Fin.val_inj] using Ne.symm e
  · intro u s hs
    by_cases e : u = t
    · subst e
      rw [setLoc_self, hafter] at hs
      simp only [Loc.sub?, Option.some.injEq] at hs
      subst hs
      refine ⟨rfl, by simp, ?_⟩
      intro e' he'
      rw [List.mem_append, List.mem_singleton] at he'
      rcases he' with he' | rfl
      · rw [Bool.eq_false_iff]
        intro hx
        have := ((k.mentioned b.counter).1 (k.ended b.counter ⟨e', he', hx⟩)).2
        omega
      · exact hends _
    · rw [setLoc_ne _ _ e] at hs
      obtain ⟨h1, h2, h3⟩ := h.held u s hs
      refine ⟨h1, hin _ _ h2, ?_⟩
      intro e' he'
      rw [List.mem_append, List.mem_singleton] at he'
      rcases he' with he' | rfl
      · exact h3 e' he'
      · exact hends _
  · rw [List.filterMap_append]
    simp only [List.filterMap_cons, List.filterMap_nil, subThread]
    refine List.nodup_append.2 ⟨h.once, by simp, ?_⟩
    intro a ha c hc hac
    rw [List.mem_singleton] at hc
    subst hc hac
    obtain ⟨e, he, hu⟩ := List.mem_filterMap.1 ha
    refine hq e he ?_
    unfold subThread at hu
    split at hu <;> simp_all
  · intro e' he'
    rw [List.mem_append, List.mem_singleton] at he'
    rcases he' with he' | rfl
    · exact h.small e' he'
    · exact t.isLt
  · intro e' he' i
    rw [List.mem_append, List.mem_singleton] at he'
    rcases he' with he' | rfl
    · exact h.clear e' he' i
    · simp [Clears]
  · intro e' he' s
    rw [List.mem_append, List.mem_singleton] at he'
    rcases he' with he' | rfl
    · exact h.nonnull e' he' s
    · simp
  · intro e' he' m s ho
    rw [List.mem_append, List.mem_singleton] at he'
    rcases he' with he' | rfl
    · obtain ⟨v, sb, h1, h2, h3, h4⟩ := h.puts e' he' m s ho
      exact ⟨v, sb, h1, h2, h3, hin _ _ h4⟩
    · simp at ho
  · intro e' he' s ho
    rw [List.mem_append, List.mem_singleton] at he'
    rcases he' with he' | rfl
    · exact hin _ _ (h.gets e' he' s ho)
    · simp at ho
  · intro u
    rw [hlog]
    by_cases e : u = t
    · subst e
      have := h.log u
      rw [hl] at this
      rw [setLoc_self, hafter]
      exact this
    · rw [setLoc_ne _ _ e]; exact h.log u
  · rw [hlog]; exact h.frm
  · rw [hlog]; exact h.rounds
  · intro u s hs
    rw [hrec]
    rw [List.mem_append, List.mem_singleton] at hs
    by_cases e : u = t
    · subst e
      have hs : s = ⟨this, b.counter⟩ := by
        rcases hs with hs | hs
        · exact absurd rfl (hq _ hs)
        · injection hs with _ _ h3
          injection h3
      rw [setLoc_self, hafter, hs]
      simp only [Loc.gets, List.length_eq_zero_iff]
      unfold receivedEver
      rw [List.filterMap_eq_nil_iff]
      intro e' he'
      obtain ⟨a, o, r⟩ := e'
      unfold gives
      simp only
      split
      · have := hfresh _ _ (h.gets _ he' _ rfl)
        rw [if_neg (by omega)]
      · rfl
    · rw [setLoc_ne _ _ e]
      rcases hs with hs | hs
      · exact h.got u s hs
      · injection hs with h1
        exact absurd (Fin.val_injective h1) e
  · intro u s k' i sum hu
    rw [hrec]
    by_cases e : u = t
    · subst e; rw [setLoc_self, hafter] at hu; simp at hu
    · rw [setLoc_ne _ _ e] at hu; exact h.sum u s k' i sum hu
  · intro u c hu
    by_cases e : u = t
    · subst e; rw [setLoc_self, hafter] at hu; simp at hu
    · rw [setLoc_ne _ _ e] at hu
      obtain ⟨s, hs, e', he', hx⟩ := h.ended u c hu
      exact ⟨s, hin _ _ hs, e', List.mem_append.2 (Or.inl he'), hx⟩
  · intro u
    rw [List.countP_append, List.countP_singleton, h.work u]
    by_cases e : u = t
    · subst e
      rw [setLoc_self, hafter, hl]
      simp [usefulBy, Loc.calls]
    · rw [setLoc_ne _ _ e]
      have : t.val ≠ u.val := by simpa [Fin.val_inj] using Ne.symm e
      simp [usefulBy, this]

/-- Sending. -/
theorem Main.put (h : Main p this tr loc) (hf : p.Fits) (k : Mail.Known tr b) (ha : AllMessages tr b)
    {t : Fin p.threads} {s : Sub} {j i : Nat} (hl : loc t = .send s j i) (hj : j < p.trials) (hi : i < p.msgs) :
    (exec this b (.put (some ⟨t.val, i⟩) (if p.noEcho then some s else none))).2 = .done ∧
      Main p this (tr ++ [⟨t.val, .put (some ⟨t.val, i⟩) (if p.noEcho then some s else none), .done⟩])
        (setLoc loc t.val fun l => l.after .done) := by
  obtain ⟨hbox, hsub, hend⟩ := h.held t s (by rw [hl]; rfl)
  have hdone : (exec this b (.put (some ⟨t.val, i⟩) (if p.noEcho then some s else none))).2 = .done := by
    cases p.noEcho
    · rfl
    · obtain ⟨bx, ix⟩ := s
      simp only at hbox
      subst hbox
      simp [exec, Box.put, Mail.getIndex, Mail.ofRes, Res.bind]
  refine ⟨hdone, ?_⟩
  generalize hsb : (if p.noEcho then some s else none) = sb at *
  have hafter : (loc t).after .done = .send s j (i + 1) := by rw [hl]; rfl
  have hin : ∀ u s', (⟨u, .subscribe, .sub s'⟩ : Event Msg) ∈ tr ++ [⟨t.val, .put (some ⟨t.val, i⟩) sb, .done⟩] ↔
      (⟨u, .subscribe, .sub s'⟩ : Event Msg) ∈ tr := by
    intro u s'; simp
  have hlog : sentLog (tr ++ [⟨t.val, .put (some ⟨t.val, i⟩) sb, .done⟩]) = sentLog tr ++ [⟨t.val, i⟩] := by
    rw [sentLog_snoc]; simp [sends]
  have hrec : ∀ i', receivedEver i' (tr ++ [⟨t.val, .put (some ⟨t.val, i⟩) sb, .done⟩]) = receivedEver i' tr := by
    intro i'; rw [receivedEver_snoc]; simp [gives]
  have hends : ∀ i', Ends i' (⟨t.val, .put (some ⟨t.val, i⟩) sb, .done⟩ : Event Msg) = false := by
    intro i'; simp [Ends]
  have hown := h.log t
  rw [hl] at hown
  simp only [Loc.puts] at hown
  refine ⟨?_, ?_, ?_, ?_, ?_, ?_, ?_, ?_, ?_, ?_, ?_, ?_, ?_, ?_, ?_, ?_⟩
  · intro u
    by_cases e : u = t
    · subst e; rw [setLoc_self, hafter]; exact ⟨by omega, by omega⟩
    · rw [setLoc_ne _ _ e]; exact h.ok u
  · intro u hu e' he'
    by_cases e : u = t
    · subst e; rw [setLoc_self, hafter] at hu; simp at hu
    · rw [setLoc_ne _ _ e] at hu
      rw [List.mem_append, List.mem_singleton] at he'
      rcases he' with he' | rfl
      · exact h.quiet u hu e' he'
      · simpa [Fin.val_inj] using Ne.symm e
  · intro u s' hs
    have key : (loc u).sub? = some s' := by
      by_cases e : u = t
      · subst e; rw [setLoc_self, hafter] at hs; rw [hl]; exact hs
      · rw [setLoc_ne _ _ e] at hs; exact hs
    obtain ⟨h1, h2, h3⟩ := h.held u s' key
    refine ⟨h1, (hin _ _).2 h2, ?_⟩
    intro e' he'
    rw [List.mem_append, List.mem_singleton] at he'
    rcases he' with he' | rfl
    · exact h3 e' he'
    · exact hends _
  · rw [List.filterMap_append]
    exact (List.append_nil _).symm ▸ h.once
  · intro e' he'
    rw [List.mem_append, List.mem_singleton] at he'
    rcases he' with he' | rfl
    · exact h.small e' he'
    · exact t.isLt
  · intro e' he' i'
    rw [List.mem_append, List.mem_singleton] at he'
    rcases he' with he' | rfl
    · exact h.clear e' he' i'
    · simp [Clears]
  · intro e' he' s'
    rw [List.mem_append, List.mem_singleton] at he'
    rcases he' with he' | rfl
    · exact h.nonnull e' he' s'
    · simp
  · intro e' he' m' s' ho
    rw [List.mem_append, List.mem_singleton] at he'
    rcases he' with he' | rfl
    · obtain ⟨v, sb', h1, h2, h3, h4⟩ := h.puts e' he' m' s' ho
      exact ⟨v, sb', h1, h2, h3, (hin _ _).2 h4⟩
    · injection ho with e1 e2
      exact ⟨i, s, e1.symm, by rw [← e2, hsb], rfl, (hin _ _).2 hsub⟩
  · intro e' he' s' ho
    rw [List.mem_append, List.mem_singleton] at he'
    rcases he' with he' | rfl
    · exact (hin _ _).2 (h.gets e' he' s' ho)
    · simp at ho
  · intro u
    rw [hlog, byS_append]
    by_cases e : u = t
    · subst e
      rw [setLoc_self, hafter, byS_self, hown]
      simp only [Loc.puts]
      rw [← Nat.add_assoc, script_succ, Nat.add_comm (j * p.msgs) i, Nat.add_mul_mod_self_right, Nat.mod_eq_of_lt hi]
    · rw [setLoc_ne _ _ e, byS_ne (by simpa [Fin.val_inj] using Ne.symm e), List.append_nil]; exact h.log u
  · rw [hlog]
    intro x hx
    rw [List.mem_append, List.mem_singleton] at hx
    rcases hx with hx | rfl
    · exact h.frm x hx
    · exact t.isLt
  · rw [hlog]
    have hlen : (byS t.val (sentLog tr)).length = j * p.msgs + i := by rw [hown, script_length]
    refine rounds_snoc h.rounds hlen hi ?_ i
    obtain ⟨q, -, -, hq⟩ := h.received_prefix k ha (t := t) (s := s) (by rw [hl]; rfl)
    have hgot := h.got t s hsub
    rw [hl] at hgot
    simp only [Loc.gets, expectedMsgs_eq hf t.isLt] at hgot
    have hall := all_sent (k := j) (A := peers p t.val) (fun u hu => peers_lt hu) h.rounds
      (by rw [← hq, List.length_append, hgot, peers_card t.isLt]; omega)
    intro u hu
    by_cases e : u = t.val
    · rw [e, hlen]; omega
    · refine hall u ?_
      unfold peers
      split
      · exact Finset.mem_erase.2 ⟨e, Finset.mem_range.2 hu⟩
      · exact Finset.mem_range.2 hu
  · intro u s' hs
    rw [hrec, h.got u s' ((hin _ _).1 hs)]
    by_cases e : u = t
    · subst e; rw [setLoc_self, hafter, hl]; rfl
    · rw [setLoc_ne _ _ e]
  · intro u s' k' i' sum hu
    rw [hrec]
    by_cases e : u = t
    · subst e; rw [setLoc_self, hafter] at hu; simp at hu
    · rw [setLoc_ne _ _ e] at hu; exact h.sum u s' k' i' sum hu
  · intro u c hu
    by_cases e : u = t
    · subst e; rw [setLoc_self, hafter] at hu; simp at hu
    · rw [setLoc_ne _ _ e] at hu
      obtain ⟨s', hs, e', he', hx⟩ := h.ended u c hu
      exact ⟨s', (hin _ _).2 hs, e', List.mem_append.2 (Or.inl he'), hx⟩
  · intro u
    rw [List.countP_append, List.countP_singleton, h.work u]
    by_cases e : u = t
    · subst e
      rw [setLoc_self, hafter, hl]
      simp [usefulBy, Loc.calls]; omega
    · rw [setLoc_ne _ _ e]
      have : t.val ≠ u.val := by simpa [Fin.val_inj] using Ne.symm e
      simp [usefulBy, this]

/-- A call of a thread that uses its own subscription gives nothing to others. -/
theorem Main.gives_other (h : Main p this tr loc) (k : Mail.Known tr b) {t u : Fin p.threads} (hu : u ≠ t) {s s' : Sub}
    (hs : (loc t).sub? = some s) (hs' : (⟨u.val, .subscribe, .sub s'⟩ : Event Msg) ∈ tr) (r : Mail.Resp Msg) :
    s.idx ≠ s'.idx ∧ gives s'.idx (⟨t.val, .get (some s), r⟩ : Event Msg) = none := by
  obtain ⟨-, hsub, -⟩ := h.held t s hs
  have hne : s.idx ≠ s'.idx := fun he => hu (Fin.val_injective (same_thread k hsub hs' he).1).symm
  refine ⟨hne, ?_⟩
  cases r <;> simp [gives]
  rename_i m
  cases m <;> simp [hne]

theorem get_resp {i : Int} {q : List (Option Msg)} (hw : waiting b i = some q) :
    (exec this b (.get (some ⟨this, i⟩))).2 = .msg q.head?.join := by
  have := (Mail.getQueue_ok (this := this) (subs := some ⟨this, i⟩)).2 ⟨rfl, hw⟩
  cases q <;> simp [exec, Box.get, this, Mail.ofRes, Res.bind]

/-- Receiving. -/
theorem Main.get (h : Main p this tr loc) (hf : p.Fits) (k : Mail.Known tr b) (ha : AllMessages tr b)
    {t : Fin p.threads} {s : Sub} {j i sum : Nat} (hl : loc t = .recv s j i sum) (hi : i < p.expectedMsgs)
    {r : Mail.Resp Msg} (hr : (exec this b (.get (some s))).2 = r) :
    r.Normal ∧ Main p this (tr ++ [⟨t.val, .get (some s), r⟩]) (setLoc loc t.val fun l => l.after r) := by
  obtain ⟨hbox, hsub, hend⟩ := h.held t s (by rw [hl]; rfl)
  obtain ⟨q, hw, hsome, hq⟩ := h.received_prefix k ha (t := t) (s := s) (by rw [hl]; rfl)
  have hr' : r = .msg q.head?.join := by
    rw [← hr, ← get_resp (this := this) hw]
    obtain ⟨bx, ix⟩ := s
    simp only at hbox
    subst hbox; rfl
  have hok := h.ok t
  rw [hl] at hok
  have hsum := h.sum t s j i sum hl
  have hends : ∀ i' r, Ends i' (⟨t.val, .get (some s), r⟩ : Event Msg) = false := by
    intro i' r; simp [Ends]
  have hother := fun u (hu : u ≠ t) (s' : Sub) (hs' : (⟨u.val, .subscribe, .sub s'⟩ : Event Msg) ∈ tr) => (h.gives_other k hu (s := s) (by rw [hl]; rfl) hs' r).2
  cases q with
  | nil =>
    simp only [List.head?_nil, Option.join_none] at hr'
    subst hr'
    refine ⟨trivial, h.other (by simp) (by simp) (by simp) ?_ ?_ ?_ ?_ ?_ ?_ ?_ hother ?_ ?_ ?_⟩
    · intro s' he
      injection he with he; injection he with he
      subst he; exact hsub
    · rw [hl]; exact hok
    · rw [hl]; simp [Loc.after]
    · intro s' hs'
      rw [hl] at hs' ⊢
      exact ⟨hs', hends _ _⟩
    · intro u _ s' _; exact hends _ _
    · rw [hl]; rfl
    · intro s' _; rw [hl]; simp [Loc.after, gives]
    · intro s' k' i' sum' he
      rw [hl] at he
      injection he with e1 e2 e3 e4
      subst e1 e2 e3 e4
      rw [receivedEver_snoc]
      simpa [gives] using hsum
    · intro c he; rw [hl] at he; simp [Loc.after] at he
    · rw [hl]; simp [Loc.after]
  | cons m rest =>
    obtain ⟨x, rfl⟩ := Option.isSome_iff_exists.1 (hsome m (by simp))
    simp only [List.head?_cons, Option.join_some] at hr'
    subst hr'
    have hx : x ∈ ofA (peers p t.val) (sentLog tr) := by
      rw [← hq]; simp
    have hxL := (List.mem_filter.1 hx).1
    have hxv : x.v < p.msgs := by
      have h1 : x ∈ byS x.frm (sentLog tr) := List.mem_filter.2 ⟨hxL, by simp⟩
      have h2 := h.log ⟨x.frm, h.frm x hxL⟩
      simp only at h2
      rw [h2, script, List.mem_map] at h1
      obtain ⟨c, -, hc⟩ := h1
      rw [← hc]
      refine Nat.mod_lt _ ?_
      rcases Nat.eq_zero_or_pos p.msgs with h0 | h0
      · rw [expectedMsgs_eq hf t.isLt, h0] at hi; omega
      · exact h0
    have hbound : sum + x.v ≤ (i + 1) * p.msgs := by
      have := hok.2.2
      rw [Nat.add_mul]; omega
    have hmod : (sum + x.v) % 18446744073709551616 = sum + x.v := by
      refine Nat.mod_eq_of_lt ?_
      have h1 : (i + 1) * p.msgs ≤ 2147483648 * 2147483648 := by
        refine Nat.mul_le_mul ?_ (Nat.le_of_lt hf.msgs)
        rw [expectedMsgs_eq hf t.isLt] at hi
        have h2 : p.msgs * p.senders ≤ p.msgs * p.threads :=
          Nat.mul_le_mul_left _ (by unfold Params.senders; omega)
        have := hf.product
        omega
      omega
    have hafter : (loc t).after (.msg (some x)) = .recv s j (i + 1) (sum + x.v) := by
      rw [hl]; simp only [Loc.after]; rw [hmod]
    have hg : gives s.idx (⟨t.val, .get (some s), .msg (some x)⟩ : Event Msg) = some x := by simp [gives]
    refine ⟨trivial, h.other (by simp) (by simp) (by simp) ?_ ?_ ?_ ?_ ?_ ?_ ?_ hother ?_ ?_ ?_⟩
    · intro s' he
      injection he with he; injection he with he
      subst he; exact hsub
    · rw [hafter]; exact ⟨hok.1, by omega, hbound⟩
    · rw [hafter]; simp
    · intro s' hs'
      rw [hafter] at hs'
      rw [hl]
      exact ⟨hs', hends _ _⟩
    · intro u _ s' _; exact hends _ _
    · rw [hafter, hl]; rfl
    · intro s' hs'
      rw [hafter, hl, h.same_sub hs' hsub, hg]
      simp [Loc.gets]; omega
    · intro s' k' i' sum' he
      rw [hafter] at he
      injection he with e1 e2 e3 e4
      subst e1 e2 e3 e4
      rw [receivedEver_snoc, hg]
      simp only [Option.toList_some, List.map_append, List.sum_append, hsum, List.map_cons, List.map_nil,
        List.sum_cons, List.sum_nil]
      omega
    · intro c he; rw [hafter] at he; simp at he
    · rw [hafter, hl]; simp [Loc.calls]; omega

/-- At the end nothing waits for a thread. -/
theorem Main.nothing_left (h : Main p this tr loc) (hf : p.Fits) (k : Mail.Known tr b) (ha : AllMessages tr b)
    {t : Fin p.threads} {s : Sub} (hs : (loc t).sub? = some s) (hg : (loc t).gets p = p.trials * p.expectedMsgs) :
    waiting b s.idx = some [] := by
  obtain ⟨hbox, hsub, hend⟩ := h.held t s hs
  obtain ⟨q, hw, hsome, hq⟩ := h.received_prefix k ha hs
  have h1 := h.got t s hsub
  have h2 := congrArg List.length hq
  have h3 := h.len_le (t := t.val)
  rw [List.length_append, h1, hg, expectedMsgs_eq hf t.isLt] at h2
  rw [peers_card t.isLt] at h3
  have e : p.senders * (p.trials * p.msgs) = p.trials * (p.msgs * p.senders) := by ring
  have h4 : (q.filterMap id).length = 0 := by omega
  cases q with
  | nil => exact hw
  | cons m rest =>
    obtain ⟨x, rfl⟩ := Option.isSome_iff_exists.1 (hsome m (by simp))
    simp at h4

/-- Line 97: there is no extra message. -/
theorem Main.extra (h : Main p this tr loc) (hf : p.Fits) (k : Mail.Known tr b) (ha : AllMessages tr b)
    {t : Fin p.threads} {s : Sub} (hl : loc t = .extra s) {r : Mail.Resp Msg} (hr : (exec this b (.get (some s))).2 = r) :
    r.Normal ∧ Main p this (tr ++ [⟨t.val, .get (some s), r⟩]) (setLoc loc t.val fun l => l.after r) := by
  obtain ⟨hbox, hsub, hend⟩ := h.held t s (by rw [hl]; rfl)
  have hw := h.nothing_left hf k ha (t := t) (s := s) (by rw [hl]; rfl) (by rw [hl]; rfl)
  have hr' : r = .msg none := by
    have := get_resp (this := this) hw
    simp only [List.head?_nil, Option.join_none] at this
    rw [← hr, ← this]
    obtain ⟨bx, ix⟩ := s
    simp only at hbox
    subst hbox; rfl
  subst hr'
  have hends : ∀ i' r, Ends i' (⟨t.val, .get (some s), r⟩ : Event Msg) = false := by
    intro i' r; simp [Ends]
  have hafter : (loc t).after (.msg none) = .count s := by rw [hl]; rfl
  refine ⟨trivial, h.other (by simp) (by simp) (by simp) ?_ ?_ ?_ ?_ ?_ ?_ ?_ ?_ ?_ ?_ ?_⟩
  · intro s' he
    injection he with he; injection he with he
    subst he; exact hsub
  · rw [hafter]; trivial
  · rw [hafter]; simp
  · intro s' hs'
    rw [hafter] at hs'
    rw [hl]
    exact ⟨hs', hends _ _⟩
  · intro u _ s' _; exact hends _ _
  · rw [hafter, hl]; rfl
  · intro s' hs'
    rw [hafter, hl]; simp [gives, Loc.gets]
  · intro u hu s' hs'
    exact (h.gives_other k hu (s := s) (by rw [hl]; rfl) hs' _).2
  · intro s' k' i' sum' he
    rw [hafter] at he; simp at he
  · intro c he; rw [hafter] at he; simp at he
  · rw [hafter, hl]; simp [Loc.calls]

/-- Line 105: the count is 0. -/
theorem Main.count (h : Main p this tr loc) (hf : p.Fits) (hrun : Mail.Run this (Box.new name) tr b)
    (ha : AllMessages tr b) {t : Fin p.threads} {s : Sub} (hl : loc t = .count s) {r : Mail.Resp Msg}
    (hr : (exec this b .minReadyCount).2 = r) :
    r.Normal ∧ Main p this (tr ++ [⟨t.val, .minReadyCount, r⟩]) (setLoc loc t.val fun l => l.after r) := by
  have k := Mail.known hrun
  obtain ⟨hbox, hsub, hend⟩ := h.held t s (by rw [hl]; rfl)
  have hw := h.nothing_left hf k ha (t := t) (s := s) (by rw [hl]; rfl) (by rw [hl]; rfl)
  have hlive : Live s.idx tr := ⟨⟨_, hsub, by simp [Subscribes]⟩, hend⟩
  have hr' : r = .count 0 := by
    obtain ⟨n, h1, -, h2, -⟩ := Mail.C43_minReadyCount this name tr b hrun h.nonnull
    have h3 := h2 _ hlive
    have h4 := k.waiting_eq h.nonnull hlive
    rw [hw] at h4
    have h5 : outstanding s.idx tr = [] := by simpa using h4
    rw [h5] at h3
    have : n = 0 := by simpa using h3
    rw [← hr, h1, this]
  subst hr'
  have hends : ∀ i' r, Ends i' (⟨t.val, .minReadyCount, r⟩ : Event Msg) = false := by
    intro i' r; simp [Ends]
  have hafter : (loc t).after (.count 0) = .leave s 0 := by rw [hl]; rfl
  refine ⟨trivial, h.other (by simp) (by simp) (by simp) (by simp) ?_ ?_ ?_ ?_ ?_ ?_ ?_ ?_ ?_ ?_⟩
  · rw [hafter]; rfl
  · rw [hafter]; simp
  · intro s' hs'
    rw [hafter] at hs'
    rw [hl]
    exact ⟨hs', hends _ _⟩
  · intro u _ s' _; exact hends _ _
  · rw [hafter, hl]; rfl
  · intro s' hs'
    rw [hafter, hl]; simp [gives, Loc.gets]
  · intro u hu s' hs'; simp [gives]
  · intro s' k' i' sum' he
    rw [hafter] at he; simp at he
  · intro c he; rw [hafter] at he; simp at he
  · rw [hafter, hl]; simp [Loc.calls]; omega

/-- The subscription is destroyed. -/
theorem Main.drop (h : Main p this tr loc) (k : Mail.Known tr b)
    {t : Fin p.threads} {s : Sub} {c : Int} (hl : loc t = .leave s c) {r : Mail.Resp Msg}
    (hr : (exec this b (.drop s)).2 = r) :
    r.Normal ∧ Main p this (tr ++ [⟨t.val, .drop s, r⟩]) (setLoc loc t.val fun l => l.after r) := by
  obtain ⟨hbox, hsub, hend⟩ := h.held t s (by rw [hl]; rfl)
  have hlive : Live s.idx tr := ⟨⟨_, hsub, by simp [Subscribes]⟩, hend⟩
  have hr' : r = .done := by
    rw [← hr]
    cases hw : waiting b s.idx with
    | none => exact absurd hw ((k.live _).2 hlive)
    | some q => simp [exec, Box.unsubscribe, Mail.getQueueI_ok.2 hw]
  subst hr'
  have hok := h.ok t
  rw [hl] at hok
  have hafter : (loc t).after .done = .done c := by rw [hl]; rfl
  refine ⟨trivial, h.other (by simp) (by simp) (by simp) (by simp) ?_ ?_ ?_ ?_ ?_ ?_ ?_ ?_ ?_ ?_⟩
  · rw [hafter]; exact hok
  · rw [hafter]; simp
  · intro s' hs'
    rw [hafter] at hs'; simp [Loc.sub?] at hs'
  · intro u hu s' hs'
    obtain ⟨-, hsub', -⟩ := h.held u s' hs'
    have := (h.gives_other k hu (s := s) (by rw [hl]; rfl) hsub' .ub).1
    simp [Ends, this]
  · rw [hafter, hl]; rfl
  · intro s' hs'
    rw [hafter, hl]; simp [gives, Loc.gets]
  · intro u hu s' hs'; simp [gives]
  · intro s' k' i' sum' he
    rw [hafter] at he; simp at he
  · intro c' _
    exact ⟨s, hsub, by simp [Ends]⟩
  · rw [hafter, hl]; simp [Loc.calls]; omega

/-- Any call of the program. -/
theorem Main.call (h : Main p this tr loc) (hf : p.Fits) (hrun : Mail.Run this (Box.new name) tr b)
    (ha : AllMessages tr b) {t : Fin p.threads} {o : Mail.Op Msg} (ho : (loc t).op p t.val = some o)
    {r : Mail.Resp Msg} (hr : (exec this b o).2 = r) :
    r.Normal ∧ Main p this (tr ++ [⟨t.val, o, r⟩]) (setLoc loc t.val fun l => l.after r) := by
  have k := Mail.known hrun
  cases hl : loc t <;> rw [hl] at ho <;> simp only [Loc.op, reduceCtorEq] at ho
  case start =>
    cases ho
    obtain ⟨h1, h2⟩ := h.subscribe hf k hl
    rw [h1] at hr
    simp only at hr
    subst hr
    exact ⟨trivial, h2⟩
  case send s j i =>
    split at ho
    · next hji =>
      cases ho
      obtain ⟨h1, h2⟩ := h.put hf k ha hl hji.1 hji.2
      rw [h1] at hr
      subst hr
      exact ⟨trivial, h2⟩
    · simp at ho
  case recv s j i sum =>
    split at ho
    · next hi => cases ho; exact h.get hf k ha hl hi hr
    · simp at ho
  case extra s => cases ho; exact h.extra hf k ha hl hr
  case count s => cases ho; exact h.count hf hrun ha hl hr
  case leave s c => cases ho; exact h.drop k hl hr

end SoDa.MailTest
