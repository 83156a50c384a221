import Verif.Model.CTest
import Verif.Props.BarrierTest
import Verif.Props.MailBoxTest
import Verif.Props.Format
/-!
Proofs about what the test programs print.
-/
namespace SoDa.CTest

theorem found_iff (pat text : Str) : found pat text = true ↔ ∃ a b, text = a ++ pat ++ b := by
  induction text with
  | nil =>
    simp only [found, List.isEmpty_iff]
    constructor
    · rintro rfl; exact ⟨[], [], rfl⟩
    · rintro ⟨a, b, h⟩; simp at h; exact h.2.1
  | cons c cs ih =>
    simp only [found, Bool.or_eq_true, ih, List.isPrefixOf_iff_prefix]
    constructor
    · rintro (⟨b, h⟩ | ⟨a, b, h⟩)
      · exact ⟨[], b, by simp [h]⟩
      · exact ⟨c :: a, b, by simp [h]⟩
    · rintro ⟨a, b, h⟩
      cases a with
      | nil => exact .inl ⟨b, by simpa using h.symm⟩
      | cons x xs => simp at h; exact .inr ⟨xs, b, by simpa using h.2⟩

/-- A text without one of the characters does not contain the pattern. -/
theorem found_char {pat text : Str} {c : Char} (hc : c ∈ pat) (h : c ∉ text) : found pat text = false := by
  rw [Bool.eq_false_iff]
  intro hf
  obtain ⟨a, b, rfl⟩ := (found_iff _ _).1 hf
  exact h (by simp [hc])

theorem mem_showInt (v : Int) (c : Char) (h : c ∈ showInt v) : c = '-' ∨ c.isDigit = true := by
  have digits : ∀ n : Nat, ∀ c ∈ Nat.toDigits 10 n, c.isDigit = true := fun n c hc =>
    Nat.isDigit_of_mem_toDigits (b := 10) (by decide) (by decide) hc
  cases v with
  | ofNat n => exact .inr (digits n c (by simpa [showInt] using h))
  | negSucc n =>
    simp only [showInt, List.mem_cons] at h
    rcases h with h | h
    · exact .inl h
    · exact .inr (digits _ c h)

theorem spawning_template : Spec.template "Spawning %0 threads\n".toList =
    ("Spawning ".toList.map Spec.Item.chr) ++ [.hole 0] ++ (" threads\n".toList.map Spec.Item.chr) := by
  decide +kernel

theorem render_chr (vals : List Str) (s : Str) : (s.map Spec.Item.chr).flatMap (Spec.renderItem vals) = s := by
  induction s with
  | nil => rfl
  | cons c cs ih => simpa [Spec.renderItem] using ih

/-- The text with the number of threads. -/
theorem spawning (v : Int) :
    textOf ((Fmt.mk' "Spawning %0 threads\n".toList).addI v).stream =
      "Spawning ".toList ++ showInt v ++ " threads\n".toList := by
  have h := C05_any_history "Spawning %0 threads\n".toList [.addI v 0 nul nul] _ rfl
  have h2 : ((Fmt.mk' "Spawning %0 threads\n".toList).addI v).stream =
      .ok (Spec.render (textsSinceReset [] [.addI v 0 nul nul]) (Spec.template "Spawning %0 threads\n".toList)) := h
  have ht : textI v 0 nul nul = showInt v := by simp [textI, padLeft]
  rw [h2, spawning_template]
  simp only [textOf, Spec.render, List.flatMap_append, render_chr]
  simp [Spec.renderItem, textsSinceReset, Call.text, ht]

end SoDa.CTest

namespace SoDa.BarTest
open Bar Spec CTest

theorem caughtText_eq (e : Out) : ∃ x, caughtText e = [oops, x, "\n".toList] ∧ 'O' ∉ x := by
  cases e
  · exact ⟨_, rfl, by decide +kernel⟩
  · exact ⟨_, rfl, by decide +kernel⟩
  · exact ⟨_, rfl, by decide +kernel⟩

theorem startText_no (p : Params) : ∀ c ∈ startText p, 'O' ∉ c := by
  intro c hc
  simp only [startText, spawning, List.mem_cons, List.not_mem_nil, or_false] at hc
  rcases hc with rfl | rfl
  · decide
  · intro h
    rw [List.mem_append, List.mem_append] at h
    rcases h with (h | h) | h
    · revert h; decide
    · rcases mem_showInt _ _ h with h | h
      · revert h; decide
      · revert h; decide
    · revert h; decide

theorem mainText_no (m : Main) : ∀ c ∈ mainText m, 'O' ∉ c := by
  intro c hc
  unfold mainText at hc
  split at hc
  · simp only [List.mem_singleton] at hc; subst hc; decide
  · simp only [List.mem_singleton] at hc; subst hc; decide
  · simp at hc

theorem raise_pc {n : Nat} {c c' : Conf (Fin n)} {t m u e} (hs : Bar.step n c t m = some (c', .raise u e)) :
    c.pc u ≠ .idle := by
  cases m with
  | call => simp [Bar.step] at hs
  | spurious => simp only [Bar.step] at hs; split at hs <;> simp at hs
  | deadline => simp only [Bar.step] at hs; split at hs <;> simp at hs
  | go =>
    simp only [Bar.step, stepGo] at hs
    split at hs <;> try (first | (simp at hs; done) | (split at hs <;> simp at hs; done))
    next r hr =>
    cases r <;> simp at hs
    · obtain ⟨-, rfl, -⟩ := hs; rw [hr]; simp
    · obtain ⟨-, rfl, -⟩ := hs; rw [hr]; simp

theorem caught_other {n : Nat} (loc : Fin n → Loc) (e : Ev (Fin n)) (he : ∀ t x, e ≠ .raise t x) (u : Fin n) :
    afterBar loc e u = .caught ↔ loc u = .caught := by
  cases e with
  | raise t x => exact absurd rfl (he t x)
  | call t =>
    simp only [afterBar, set]
    split
    · next h => subst h; cases loc u <;> simp [Loc.enter]
    · rfl
  | ret t =>
    simp only [afterBar, set]
    split
    · next h => subst h; cases loc u <;> simp [Loc.after]
    · rfl
  | _ => rfl

theorem begin_ne_caught (p : Params) (i : Nat) : p.begin i ≠ .caught := by
  unfold Params.begin
  dsimp only
  split
  · simp
  · split <;> simp

/-- What has been and what has to be written. -/
structure OInv (p : Params) (ls : List (Option (Ev (Fin p.n)))) (o : OSt p.n) : Prop where
  exec : Exec p ls o.prog
  quiet : ∀ t, o.prog.loc t ≠ .caught → o.pend (some t) = []
  left : ∀ t, o.prog.loc t = .caught → ∃ e pre, pre ++ o.pend (some t) = caughtText e ∧ (pre ≠ [] → oops ∈ o.out)
  only : oops ∈ o.out → ∃ t, o.prog.loc t = .caught
  other : ∀ c ∈ o.out, c = oops ∨ 'O' ∉ c
  main : ∀ c ∈ o.pend none, 'O' ∉ c
  joined : ∀ i, o.prog.main = .join i → ∀ t : Fin p.n, t.val < i → o.pend (some t) = []
  exited : ∀ c, o.prog.main = .exited c → ∀ t, o.pend (some t) = []

theorem oinv_exec {p : Params} {ls o} (h : OExec p ls o) : OInv p ls o := by
  induction h with
  | init =>
    refine ⟨Exec.init, fun t _ => rfl, fun t ht => ?_, fun h => ?_, fun c hc => ?_, ?_, fun i hi => ?_, fun c hc => ?_⟩
    · simp [OSt.start, St.start] at ht
    · simp [OSt.start] at h
    · simp [OSt.start] at hc
    · intro c hc
      exact startText_no p c (by simpa [OSt.start] using hc)
    · simp [OSt.start, St.start] at hi
    · simp [OSt.start, St.start] at hc
  | @snoc ls o l o' h hs ih =>
    have inv := inv_exec ih.exec
    cases hs with
    | @thread l s' hst hm =>
      refine (?_ : OInv p (ls ++ [l]) _)
      have hex := Exec.snoc ih.exec hst
      have key : ∀ (pend' : Option (Fin p.n) → List Str), (∀ t, s'.loc t = .caught ↔ o.prog.loc t = .caught) →
          pend' = o.pend → OInv p (ls ++ [l]) { o with prog := s', pend := pend' } := by
        rintro pend' hc rfl
        refine ⟨hex, fun t ht => ih.quiet t fun h' => ht ((hc t).2 h'), fun t ht => ih.left t ((hc t).1 ht), fun h' => ?_, ih.other,
          ih.main, fun i hi => ih.joined i (by rw [← hm]; exact hi), fun c hc => ih.exited c (by rw [← hm]; exact hc)⟩
        obtain ⟨t, ht⟩ := ih.only h'
        exact ⟨t, (hc t).2 ht⟩
      cases hst with
      | spawn hm' h' => exact absurd hm (by rw [hm']; simp)
      | spawned hm' => exact absurd hm (by rw [hm']; simp)
      | join hm' h' he => exact absurd hm (by rw [hm']; simp)
      | exit hm' => exact absurd hm (by rw [hm']; simp)
      | @leave t i hl h' =>
        refine key _ (fun u => ?_) rfl
        by_cases hu : u = t
        · subst hu; simp [set, hl]
        · simp [set, hu]
      | @bar t m b e hst hc =>
        by_cases hr : ∃ u x, e = .raise u x
        · obtain ⟨u, x, rfl⟩ := hr
          have hpc := raise_pc hst
          have hg := inv.good u
          have hw : ∃ i, o.prog.loc u = .inWait i := by
            cases hl : o.prog.loc u <;> rw [hl] at hg <;> simp only [Good] at hg
            case inWait i => exact ⟨i, rfl⟩
            all_goals exact absurd hg.1 hpc
          obtain ⟨i, hw⟩ := hw
          have hnot : (o.prog.loc u).ended = false := by rw [hw]; rfl
          have hloc : ∀ v, v ≠ u → afterBar o.prog.loc (.raise u x) v = o.prog.loc v := by
            intro v hv; simp [afterBar, set, hv]
          have hlocu : afterBar o.prog.loc (.raise u x) u = .caught := by simp [afterBar, set, hw, Loc.after]
          have hpend : ∀ v, v ≠ u → pendAfter o.pend (some (.raise u x)) (some v) = o.pend (some v) := by
            intro v hv; simp [pendAfter, setPend, hv]
          refine ⟨hex, fun v hv => ?_, fun v hv => ?_, fun h' => ⟨u, hlocu⟩, ih.other, ?_, ?_, ?_⟩
          · have hne : v ≠ u := by rintro rfl; exact hv hlocu
            have hv' : o.prog.loc v ≠ .caught := by rw [← hloc v hne]; exact hv
            simpa [hpend v hne] using ih.quiet v hv'
          · by_cases hne : v = u
            · subst hne
              exact ⟨x, [], by simp [pendAfter, setPend], by simp⟩
            · have hv' : o.prog.loc v = .caught := by rw [← hloc v hne]; exact hv
              simpa [hpend v hne] using ih.left v hv'
          · simpa [pendAfter, setPend] using ih.main
          · intro j hj v hv
            have hne : v ≠ u := by
              rintro rfl
              have := (inv.joined j hj).2 v hv
              rw [hnot] at this; cases this
            simpa [hpend v hne] using ih.joined j hj v hv
          · intro c hc' v
            have hne : v ≠ u := by
              rintro rfl
              have := (inv.exited c hc').2 v
              rw [hnot] at this; cases this
            simpa [hpend v hne] using ih.exited c hc' v
        · have hr' : ∀ t x, e ≠ .raise t x := fun t x he => hr ⟨t, x, he⟩
          refine key _ (caught_other _ e hr') ?_
          cases e <;> first | rfl | exact absurd rfl (hr' _ _)
    | @main s' hst hm hp hj =>
      refine (?_ : OInv p (ls ++ [none]) _)
      have hex := Exec.snoc ih.exec hst
      have hpend : ∀ t : Fin p.n, setPend o.pend none (mainText s'.main) (some t) = o.pend (some t) := by
        intro t; simp [setPend]
      have hmain : ∀ c ∈ setPend o.pend none (mainText s'.main) none, 'O' ∉ c := by
        simpa [setPend] using mainText_no s'.main
      have hcaught : ∀ t, s'.loc t = .caught ↔ o.prog.loc t = .caught := by
        intro t
        cases hst with
        | @spawn i hm' h' =>
          have hu : o.prog.loc ⟨i, h'⟩ = .unborn := ((inv.spawn i hm').2 ⟨i, h'⟩).2 (Nat.le_refl _)
          have hb := begin_ne_caught p i
          by_cases ht : t = ⟨i, h'⟩
          · rw [ht, hu]
            simp only [set, if_true, reduceCtorEq, iff_false]
            exact hb
          · simp only [set, if_neg ht]
        | spawned hm' => rfl
        | join hm' h' he => rfl
        | exit hm' => rfl
        | leave hl h' => exact absurd rfl hm
      have hjoin : ∀ i, s'.main = .join i → ∀ t : Fin p.n, t.val < i → o.pend (some t) = [] := by
        intro i hi t ht
        cases hst with
        | spawn hm' h' => simp at hi
        | spawned hm' => simp at hi; omega
        | @join j hm' h' he =>
          simp only [Main.join.injEq] at hi
          by_cases hj' : t.val = j
          · exact hj t (by rw [hj'])
          · exact ih.joined j hm' t (by omega)
        | exit hm' => simp at hi
        | leave hl h' => exact absurd rfl hm
      have hexit : ∀ c, s'.main = .exited c → ∀ t, o.pend (some t) = [] := by
        intro c hc t
        cases hst with
        | spawn hm' h' => simp at hc
        | spawned hm' => simp at hc
        | join hm' h' he => simp at hc
        | exit hm' => exact ih.joined _ hm' t t.isLt
        | leave hl h' => exact absurd rfl hm
      refine ⟨hex, fun t ht => ?_, fun t ht => ?_, fun h' => ?_, ih.other, hmain, fun i hi t ht => ?_, fun c hc t => ?_⟩
      · simpa [hpend t] using ih.quiet t fun h' => ht ((hcaught t).2 h')
      · simpa [hpend t] using ih.left t ((hcaught t).1 ht)
      · obtain ⟨t, ht⟩ := ih.only h'
        exact ⟨t, (hcaught t).2 ht⟩
      · simpa [hpend t] using hjoin i hi t ht
      · simpa [hpend t] using hexit c hc t
    | @write w c cs hw =>
      refine (?_ : OInv p (ls ++ []) _)
      rw [List.append_nil]
      cases w with
      | none =>
        have hpend : ∀ t : Fin p.n, setPend o.pend none cs (some t) = o.pend (some t) := by
          intro t; simp [setPend]
        have hc : 'O' ∉ c := ih.main c (by simp [hw])
        have hne : c ≠ oops := by rintro rfl; exact hc (by decide)
        refine ⟨ih.exec, fun t ht => ?_, fun t ht => ?_, fun h' => ?_, fun x hx => ?_, fun x hx => ?_, fun i hi t ht => ?_,
          fun k hk t => ?_⟩
        · simpa [hpend t] using ih.quiet t ht
        · obtain ⟨e, pre, h1, h2⟩ := ih.left t ht
          exact ⟨e, pre, by simpa [hpend t] using h1, fun hpre => by simp [h2 hpre]⟩
        · simp only [List.mem_append, List.mem_singleton] at h'
          rcases h' with h' | h'
          · exact ih.only h'
          · exact absurd h'.symm hne
        · simp only [List.mem_append, List.mem_singleton] at hx
          rcases hx with hx | rfl
          · exact ih.other x hx
          · exact .inr hc
        · exact ih.main x (by rw [hw]; simp only [setPend, if_true] at hx; simp [hx])
        · simpa [hpend t] using ih.joined i hi t ht
        · simpa [hpend t] using ih.exited k hk t
      | some u =>
        have hcaught : o.prog.loc u = .caught := by
          by_contra hn
          rw [ih.quiet u hn] at hw
          cases hw
        obtain ⟨e, pre, h1, h2⟩ := ih.left u hcaught
        obtain ⟨x, hx, hxO⟩ := caughtText_eq e
        rw [hw, hx] at h1
        have hcs : ∀ t : Fin p.n, t ≠ u → setPend o.pend (some u) cs (some t) = o.pend (some t) := by
          intro t ht; simp [setPend, ht]
        have hout : oops ∈ o.out ++ [c] := by
          cases pre with
          | nil => simp at h1; simp [h1.1]
          | cons a as => simp [h2 (by simp)]
        have hcO : c = oops ∨ 'O' ∉ c := by
          have hmem : c ∈ [oops, x, "\n".toList] := by rw [← h1]; simp
          simp only [List.mem_cons, List.not_mem_nil, or_false] at hmem
          rcases hmem with h | h | h
          · exact .inl h
          · exact .inr (h ▸ hxO)
          · exact .inr (by subst h; decide)
        refine ⟨ih.exec, fun t ht => ?_, fun t ht => ?_, fun _ => ⟨u, hcaught⟩, fun y hy => ?_, ?_, fun i hi t ht => ?_,
          fun k hk t => ?_⟩
        · have hne : t ≠ u := by rintro rfl; exact ht hcaught
          simpa [hcs t hne] using ih.quiet t ht
        · by_cases hne : t = u
          · subst hne
            exact ⟨e, pre ++ [c], by rw [hx, ← h1]; simp [setPend], fun _ => hout⟩
          · obtain ⟨e', pre', h3, h4⟩ := ih.left t ht
            exact ⟨e', pre', by simpa [hcs t hne] using h3, fun hpre => by simp [h4 hpre]⟩
        · simp only [List.mem_append, List.mem_singleton] at hy
          rcases hy with hy | rfl
          · exact ih.other y hy
          · exact hcO
        · simpa [setPend] using ih.main
        · have hne : t ≠ u := by
            rintro rfl
            rw [ih.joined i hi t ht] at hw
            cases hw
          simpa [hcs t hne] using ih.joined i hi t ht
        · have := ih.exited k hk u
          rw [this] at hw
          cases hw

/-- The text contains the words exactly if a thread has written them. -/
theorem text_found {p : Params} {ls o} (h : OInv p ls o) : found "Ooops, dang!".toList o.text = true ↔ oops ∈ o.out := by
  constructor
  · intro hf
    by_contra hn
    have : 'O' ∉ o.text := by
      unfold OSt.text
      intro hO
      obtain ⟨c, hc, hO⟩ := List.mem_flatten.1 hO
      rcases h.other c hc with rfl | h'
      · exact hn hc
      · exact h' hO
    rw [found_char (by decide) this] at hf
    cases hf
  · intro ho
    obtain ⟨a, b, hab⟩ := List.append_of_mem ho
    rw [found_iff]
    refine ⟨a.flatten, ": ".toList ++ b.flatten, ?_⟩
    unfold OSt.text
    rw [hab]
    have : oops = "Ooops, dang!".toList ++ ": ".toList := by decide
    simp only [List.flatten_append, List.flatten_cons, this, List.append_assoc]

end SoDa.BarTest
