import Verif.Server.Listener
/-
Shutdown (C62) and the accept loop (C63).
-/

namespace Ninep.Listen

/-! ### C63 -/

/-- The waiting times prescribed for a sequence of outcomes of `Accept`: the k-th temporary error in a row
(counted from 0) is followed by a wait of 5·2ᵏ ms, but never more than a second. -/
def waits : Nat → List Accepted → List Nat
  | _, [] => []
  | k, .temporary _ :: l => min (5 * 2 ^ k) 1000 * 1000000 :: waits (k + 1) l
  | _, _ :: l => waits 0 l

/-- number of temporary errors at the end -/
def streak : Nat → List Accepted → Nat
  | k, [] => k
  | k, .temporary _ :: l => streak (k + 1) l
  | _, _ :: l => streak 0 l

theorem waits_snoc (k : Nat) (l : List Accepted) (a : Accepted) :
    waits k (l ++ [a]) = waits k l ++ waits (streak k l) [a] := by
  induction l generalizing k with
  | nil => rfl
  | cons b l ih => cases b <;> simp [waits, streak, ih]

theorem streak_snoc (k : Nat) (l : List Accepted) (a : Accepted) :
    streak k (l ++ [a]) = streak (streak k l) [a] := by
  induction l generalizing k with
  | nil => rfl
  | cons b l ih => cases b <;> simp [streak, ih]

/-- the value of `tempDelay` after k temporary errors in a row -/
def delayAfter (k : Nat) : Nat := if k = 0 then 0 else min (5 * 2 ^ (k - 1)) 1000 * 1000000

theorem backoff_delay (k : Nat) : backoff (delayAfter k) = min (5 * 2 ^ k) 1000 * 1000000 := by
  unfold backoff delayAfter
  cases k with
  | zero => decide
  | succ k =>
    have : 2 ^ (k + 1) = 2 * 2 ^ k := by rw [Nat.pow_succ, Nat.mul_comm]
    simp only [Nat.add_one_ne_zero, if_false, Nat.add_sub_cancel, this]
    have h0 : 0 < 2 ^ k := Nat.pow_pos (by decide)
    generalize 2 ^ k = x at h0
    have : ¬ min (5 * x) 1000 * 1000000 = 0 := by omega
    rw [if_neg this]
    split <;> omega

/-- is this a conn or a temporary error? -/
def Accepted.goesOn : Accepted → Prop
  | .permanent _ => False
  | _ => True

/-- what is always true of a call of `Serve` -/
def CallOk (c : Serving) : Prop :=
  c.slept = waits 0 c.seen ∧
  match c.pc with
  | .entered => c.seen = []
  | .accepting d => (∀ a ∈ c.seen, a.goesOn) ∧ d = delayAfter (streak 0 c.seen)
  | .sleeping d => (∀ a ∈ c.seen, a.goesOn) ∧ d = delayAfter (streak 0 c.seen) ∧ 0 < streak 0 c.seen
  | .untracking e | .closing e | .returned e => ∃ l, c.seen = l ++ [.permanent e] ∧ ∀ a ∈ l, a.goesOn

theorem mem_set {α : Type} {l : List α} {i : Nat} {a c : α} (h : c ∈ l.set i a) : c = a ∨ c ∈ l :=
  (List.mem_or_eq_of_mem_set h).symm

theorem callOk_accept {c : Serving} {d : Nat} (hc : CallOk c) (hp : c.pc = .accepting d) (a : Accepted) :
    CallOk { c with pc := (acceptReturns d a).1, seen := c.seen ++ [a], slept := c.slept ++ (acceptReturns d a).2.1 } := by
  unfold CallOk at hc
  rw [hp] at hc
  obtain ⟨h1, h2, h3⟩ := hc
  have hd : delayAfter (streak 0 c.seen + 1) = min (5 * 2 ^ streak 0 c.seen) 1000 * 1000000 := by
    simp [delayAfter]
  cases a with
  | conn x =>
    refine ⟨by simp [acceptReturns, waits_snoc, waits, h1], ?_, by simp [streak_snoc, streak, delayAfter]⟩
    intro a ha
    simp only [List.mem_append, List.mem_singleton] at ha
    rcases ha with ha | rfl
    · exact h2 a ha
    · trivial
  | temporary e =>
    refine ⟨by simp [acceptReturns, waits_snoc, waits, h1, h3, backoff_delay], ?_, ?_, ?_⟩
    · intro a ha
      simp only [List.mem_append, List.mem_singleton] at ha
      rcases ha with ha | rfl
      · exact h2 a ha
      · trivial
    · rw [h3, backoff_delay, streak_snoc]
      exact hd.symm
    · simp [streak_snoc, streak]
  | permanent e =>
    exact ⟨by simp [acceptReturns, waits_snoc, waits, h1], c.seen, rfl, h2⟩

theorem reachable_callOk {s : Sys} (h : Reachable s) : ∀ c ∈ s.calls, CallOk c := by
  induction h with
  | init => intro c hc; cases hc
  | step _ hs ih =>
    cases hs with
    | call ln =>
      intro c hc
      simp only [List.mem_append, List.mem_singleton] at hc
      rcases hc with hc | rfl
      · exact ih c hc
      · exact ⟨rfl, rfl⟩
    | track i c0 h0 hp =>
      intro c hc
      rcases mem_set hc with rfl | hc
      · have := ih c0 (List.mem_of_getElem? h0)
        unfold CallOk at this
        rw [hp] at this
        obtain ⟨h1, h2⟩ := this
        dsimp only at h2
        exact ⟨h1, by rw [show _ = _ from h2]; simp, by rw [show _ = _ from h2]; rfl⟩
      · exact ih c hc
    | accept i c0 d a h0 hp =>
      intro c hc
      rcases mem_set hc with rfl | hc
      · exact callOk_accept (ih c0 (List.mem_of_getElem? h0)) hp a
      · exact ih c hc
    | wake i c0 d h0 hp =>
      intro c hc
      rcases mem_set hc with rfl | hc
      · have := ih c0 (List.mem_of_getElem? h0)
        unfold CallOk at this
        rw [hp] at this
        exact ⟨this.1, this.2.1, this.2.2.1⟩
      · exact ih c hc
    | untrack i c0 e h0 hp =>
      intro c hc
      rcases mem_set hc with rfl | hc
      · have := ih c0 (List.mem_of_getElem? h0)
        unfold CallOk at this
        rw [hp] at this
        exact this
      · exact ih c hc
    | close i c0 e h0 hp =>
      intro c hc
      rcases mem_set hc with rfl | hc
      · have := ih c0 (List.mem_of_getElem? h0)
        unfold CallOk at this
        rw [hp] at this
        exact this
      · exact ih c hc
    | shutdown close order ho => exact ih

/-- each wait is between 5ms and 1s -/
theorem waits_bounds (k : Nat) (l : List Accepted) : ∀ d ∈ waits k l, 5000000 ≤ d ∧ d ≤ 1000000000 := by
  induction l generalizing k with
  | nil => intro d hd; cases hd
  | cons a l ih =>
    cases a with
    | temporary e =>
      intro d hd
      simp only [waits, List.mem_cons] at hd
      rcases hd with rfl | hd
      · have h0 : 0 < 2 ^ k := Nat.pow_pos (by decide)
        omega
      · exact ih _ d hd
    | conn c => exact fun d hd => ih _ d hd
    | permanent e => exact fun d hd => ih _ d hd

/-- C63: in every process, every call of `Serve` sleeps after each temporary error, as long as `waits` says, and
at no other time; each sleep lasts between 5 ms and 1 s; it goes on until the first permanent error, and
returns exactly that error. -/
theorem C63_backoff {s : Sys} (h : Reachable s) {c : Serving} (hc : c ∈ s.calls) :
    c.slept = waits 0 c.seen ∧ (∀ d ∈ c.slept, 5000000 ≤ d ∧ d ≤ 1000000000) ∧
    (∀ e, c.pc = .returned e → ∃ l, c.seen = l ++ [.permanent e] ∧ ∀ a ∈ l, a.goesOn) ∧
    (∀ d, c.pc = .sleeping d → ∃ l, c.slept = l ++ [d]) := by
  have hk := reachable_callOk h c hc
  refine ⟨hk.1, ?_, ?_, ?_⟩
  · rw [hk.1]; exact waits_bounds _ _
  · intro e he
    have := hk.2
    rw [he] at this
    exact this
  · intro d hd
    have := hk.2
    rw [hd] at this
    obtain ⟨_, h2, h3⟩ := this
    rw [hk.1]
    -- the last outcome was a temporary error
    rcases List.eq_nil_or_concat c.seen with hn | ⟨l, a, hl⟩
    · rw [hn] at h3; cases h3
    · rw [hl, List.concat_eq_append] at h2 h3 ⊢
      rw [streak_snoc] at h2 h3
      rw [waits_snoc]
      cases a with
      | temporary e => exact ⟨_, by rw [h2]; simp [waits, streak, delayAfter]; rfl⟩
      | conn x => cases h3
      | permanent e => cases h3

/-! ### C62 -/

/-- the call is past `trackListener(ln, true)` and has not yet undone it -/
def Serving.active (c : Serving) : Prop :=
  match c.pc with
  | .accepting _ | .sleeping _ | .untracking _ => True
  | _ => False

/-- the call is about to close its listener and to return -/
def Serving.isClosing (c : Serving) : Prop := ∃ e, c.pc = .closing e

/-- `Close` was called on the listener -/
def Sys.Closed (s : Sys) (ln : Ln) : Prop := ∃ who, (ln, who) ∈ s.closes

theorem mem_set_keep {α : Type} {l : List α} {i : Nat} {a b c : α} (h0 : l[i]? = some b) (hc : c ∈ l) :
    c = b ∨ c ∈ l.set i a := by
  obtain ⟨j, hj⟩ := List.mem_iff_getElem?.1 hc
  by_cases hij : i = j
  · subst hij
    rw [h0] at hj
    exact .inl (Option.some.inj hj).symm
  · exact .inr (List.mem_iff_getElem?.2 ⟨j, by rw [List.getElem?_set_ne hij]; exact hj⟩)

theorem mem_set_new {α : Type} {l : List α} {i : Nat} {a b : α} (h0 : l[i]? = some b) : a ∈ l.set i a := by
  have hi : i < l.length := (List.getElem?_eq_some_iff.1 h0).1
  exact List.mem_iff_getElem?.2 ⟨i, by rw [List.getElem?_set_self hi]⟩

theorem closeLoop_eq (close : Ln → Option GoString) (order : List Ln) (err : Option GoString) (ls cl : List Ln) :
    closeLoop close order err ls cl =
      (err.or (order.findSome? close), ls.filter (fun x => ¬ x ∈ order), cl ++ order) := by
  induction order generalizing err ls cl with
  | nil => simp [closeLoop, List.filter_eq_self.2]
  | cons ln order ih =>
    unfold closeLoop
    rw [ih]
    refine Prod.ext ?_ (Prod.ext ?_ ?_)
    · cases h : close ln <;> cases err <;> simp [h, List.findSome?]
    · simp only [List.filter_filter]
      apply List.filter_congr
      intro x _
      by_cases h : x = ln <;> simp [h]
    · simp

/-- C62, one call: every listener that is tracked is closed once, none remains, and the first error in the
order in which they were closed is returned. -/
theorem C62_shutdown (close : Ln → Option GoString) {order ls : List Ln} (hn : ls.Nodup) (ho : order.Perm ls) :
    (closeListenersLocked close order ls).1 = order.findSome? close ∧
    (closeListenersLocked close order ls).2.1 = [] ∧
    (closeListenersLocked close order ls).2.2 = order ∧
    ∀ ln, order.count ln = if ln ∈ ls then 1 else 0 := by
  unfold closeListenersLocked
  rw [closeLoop_eq]
  refine ⟨by simp, ?_, by simp, ?_⟩
  · show ls.filter _ = []
    rw [List.filter_eq_nil_iff]
    intro x hx
    simp [ho.mem_iff.2 hx]
  · intro ln
    rw [ho.count_eq]
    split
    · rw [hn.count]; exact if_pos (by assumption)
    · exact List.count_eq_zero_of_not_mem (by assumption)

/-- the call has called `trackListener(ln, true)` -/
def Serving.began (c : Serving) : Bool :=
  match c.pc with
  | .entered => false
  | _ => true

/-- the number of times `trackListener(ln, true)` was called -/
def tracked (calls : List Serving) (ln : Ln) : Nat := calls.countP fun c => c.ln == ln && c.began

structure Inv (s : Sys) : Prop where
  nodup : s.listeners.Nodup
  /-- only listeners being served are tracked -/
  sound : ∀ ln ∈ s.listeners, ∃ c ∈ s.calls, c.ln = ln ∧ c.active
  /-- listeners being served are tracked, closed, or about to be closed -/
  complete : ∀ c ∈ s.calls, c.active → c.ln ∈ s.listeners ∨ s.Closed c.ln ∨ ∃ c' ∈ s.calls, c'.ln = c.ln ∧ c'.isClosing
  /-- a call that returned has closed its listener -/
  done : ∀ i c, s.calls[i]? = some c → (∃ e, c.pc = .returned e) → (c.ln, .serve i) ∈ s.closes

theorem mem_track {ls : List Ln} {ln x : Ln} : x ∈ trackListener ls ln true ↔ x = ln ∨ x ∈ ls := by
  unfold trackListener
  simp only [if_true]
  split
  · constructor
    · exact .inr
    · rintro (rfl | h) <;> assumption
  · simp

theorem mem_untrack {ls : List Ln} {ln x : Ln} : x ∈ trackListener ls ln false ↔ x ∈ ls ∧ x ≠ ln := by
  simp [trackListener]

/-- a step that changes one call, the listeners and the record of closes -/
theorem inv_upd {s : Sys} (h : Inv s) {i : Nat} {c0 c1 : Serving} (h0 : s.calls[i]? = some c0) (hln : c1.ln = c0.ln)
    {ls : List Ln} {cl : List (Ln × Closer)} {conns : List NetConn}
    (hnd : ls.Nodup) (hcl : ∀ x ∈ s.closes, x ∈ cl)
    (hs : ∀ x ∈ ls, (x = c1.ln ∧ c1.active) ∨ (x ∈ s.listeners ∧ (c0.active → c1.active ∨ x ≠ c0.ln)))
    (hc1 : c1.active → c0.active ∨ c1.ln ∈ ls)
    (hc : ∀ x ∈ s.listeners, x ∈ ls ∨ (x = c1.ln ∧ c1.isClosing))
    (hcc : c0.isClosing → c1.isClosing ∨ ∃ who, (c0.ln, who) ∈ cl)
    (hd : (∃ e, c1.pc = .returned e) → (c1.ln, .serve i) ∈ cl) :
    Inv { s.upd i c1 with listeners := ls, closes := cl, conns := conns } := by
  refine ⟨hnd, ?_, ?_, ?_⟩
  · intro ln hl
    rcases hs ln hl with ⟨rfl, h1⟩ | ⟨h1, h2⟩
    · exact ⟨c1, mem_set_new h0, rfl, h1⟩
    · obtain ⟨c, hc, hcl, hca⟩ := h.sound ln h1
      rcases mem_set_keep (a := c1) h0 hc with rfl | hk
      · rcases h2 hca with h2 | h2
        · exact ⟨c1, mem_set_new h0, by rw [hln, hcl], h2⟩
        · exact absurd hcl.symm h2
      · exact ⟨c, hk, hcl, hca⟩
  · have key : ∀ c ∈ s.calls, c.active → c.ln ∈ ls ∨ (∃ who, (c.ln, who) ∈ cl) ∨ ∃ c' ∈ s.calls.set i c1, c'.ln = c.ln ∧ c'.isClosing := by
      intro c hcm hca
      rcases h.complete c hcm hca with h1 | ⟨who, h1⟩ | ⟨c', h1, h2, h3⟩
      · rcases hc _ h1 with h2 | ⟨h2, h3⟩
        · exact .inl h2
        · exact .inr (.inr ⟨c1, mem_set_new h0, h2.symm, h3⟩)
      · exact .inr (.inl ⟨who, hcl _ h1⟩)
      · rcases mem_set_keep (a := c1) h0 h1 with rfl | hk
        · rcases hcc h3 with h4 | ⟨who, h4⟩
          · exact .inr (.inr ⟨c1, mem_set_new h0, by rw [hln, h2], h4⟩)
          · exact .inr (.inl ⟨who, by rw [← h2]; exact h4⟩)
        · exact .inr (.inr ⟨c', hk, h2, h3⟩)
    intro c hcm hca
    rcases mem_set hcm with rfl | hcm
    · rcases hc1 hca with h1 | h1
      · rw [hln]
        exact key c0 (List.mem_of_getElem? h0) h1
      · exact .inl h1
    · exact key c hcm hca
  · intro j c hj he
    by_cases hij : i = j
    · subst hij
      have hi : i < s.calls.length := (List.getElem?_eq_some_iff.1 h0).1
      have : (s.calls.set i c1)[i]? = some c := hj
      rw [List.getElem?_set_self hi] at this
      cases this
      exact hd he
    · have : (s.calls.set i c1)[j]? = some c := hj
      rw [List.getElem?_set_ne hij] at this
      exact hcl _ (h.done j c this he)

theorem reachable_inv {s : Sys} (h : Reachable s) : Inv s := by
  induction h with
  | init => exact ⟨List.nodup_nil, fun _ h => (by cases h), fun _ h => (by cases h), fun _ _ h => (by simp at h)⟩
  | @step s s' hr hs ih =>
    cases hs with
    | call ln =>
      refine ⟨ih.nodup, ?_, ?_, ?_⟩
      · intro x hx
        obtain ⟨c, h1, h2⟩ := ih.sound x hx
        exact ⟨c, List.mem_append_left _ h1, h2⟩
      · intro c hc ha
        rcases List.mem_append.1 hc with hc | hc
        · rcases ih.complete c hc ha with h1 | h1 | ⟨c', h1, h2⟩
          · exact .inl h1
          · exact .inr (.inl h1)
          · exact .inr (.inr ⟨c', List.mem_append_left _ h1, h2⟩)
        · rw [List.mem_singleton] at hc
          subst hc
          cases ha
      · intro i c hi he
        rw [List.getElem?_append] at hi
        split at hi
        · exact ih.done i c hi he
        · have := List.mem_of_getElem? hi
          rw [List.mem_singleton] at this
          subst this
          obtain ⟨e, he⟩ := he
          cases he
    | track i c0 h0 hp =>
      refine inv_upd ih h0 (c1 := { c0 with pc := .accepting 0 }) (conns := s.conns) rfl ?_ (fun _ h => h) ?_ ?_ ?_ ?_ ?_
      · unfold trackListener
        simp only [if_true]
        split
        · exact ih.nodup
        · exact List.nodup_cons.2 ⟨by assumption, ih.nodup⟩
      · intro x hx
        rcases mem_track.1 hx with rfl | hx
        · exact .inl ⟨rfl, trivial⟩
        · exact .inr ⟨hx, fun _ => .inl trivial⟩
      · exact fun _ => .inr (mem_track.2 (.inl rfl))
      · exact fun x hx => .inl (mem_track.2 (.inr hx))
      · rintro ⟨e, he⟩; rw [hp] at he; cases he
      · rintro ⟨e, he⟩; cases he
    | accept i c0 d a h0 hp =>
      have hac : ∀ c1 : Serving, c1.pc = (acceptReturns d a).1 → c1.active := by
        intro c1 h1; unfold Serving.active; rw [h1]; cases a <;> trivial
      refine inv_upd ih h0 (c1 := { c0 with pc := (acceptReturns d a).1, seen := c0.seen ++ [a], slept := c0.slept ++ (acceptReturns d a).2.1 })
        (conns := s.conns ++ (acceptReturns d a).2.2) rfl ih.nodup (fun _ h => h) ?_ ?_ (fun x hx => .inl hx) ?_ ?_
      · exact fun x hx => .inr ⟨hx, fun _ => .inl (hac _ rfl)⟩
      · exact fun _ => .inl (by unfold Serving.active; rw [hp]; trivial)
      · rintro ⟨e, he⟩; rw [hp] at he; cases he
      · rintro ⟨e, he⟩; dsimp only at he; cases a <;> cases he
    | wake i c0 d h0 hp =>
      refine inv_upd ih h0 (c1 := { c0 with pc := .accepting d }) (conns := s.conns) rfl ih.nodup (fun _ h => h) ?_ ?_
        (fun x hx => .inl hx) ?_ ?_
      · exact fun x hx => .inr ⟨hx, fun _ => .inl trivial⟩
      · exact fun _ => .inl (by unfold Serving.active; rw [hp]; trivial)
      · rintro ⟨e, he⟩; rw [hp] at he; cases he
      · rintro ⟨e, he⟩; cases he
    | untrack i c0 e h0 hp =>
      refine inv_upd ih h0 (c1 := { c0 with pc := .closing e }) (conns := s.conns) rfl ?_ (fun _ h => h) ?_ ?_ ?_ ?_ ?_
      · unfold trackListener
        simp only [Bool.false_eq_true, if_false]
        exact ih.nodup.filter _
      · intro x hx
        obtain ⟨h1, h2⟩ := mem_untrack.1 hx
        exact .inr ⟨h1, fun _ => .inr h2⟩
      · intro h; cases h
      · intro x hx
        by_cases hxe : x = c0.ln
        · exact .inr ⟨hxe, e, rfl⟩
        · exact .inl (mem_untrack.2 ⟨hx, hxe⟩)
      · rintro ⟨e, he⟩; rw [hp] at he; cases he
      · rintro ⟨e, he⟩; cases he
    | close i c0 e h0 hp =>
      refine inv_upd ih h0 (c1 := { c0 with pc := .returned e }) (conns := s.conns) rfl ih.nodup
        (fun _ h => List.mem_append_left _ h) ?_ ?_ (fun x hx => .inl hx) ?_ ?_
      · exact fun x hx => .inr ⟨hx, fun ha => by unfold Serving.active at ha; rw [hp] at ha; cases ha⟩
      · intro h; cases h
      · exact fun _ => .inr ⟨_, List.mem_append_right _ (List.mem_singleton.2 rfl)⟩
      · exact fun _ => List.mem_append_right _ (List.mem_singleton.2 rfl)
    | shutdown close order ho =>
      obtain ⟨_, h2, h3, _⟩ := C62_shutdown close ih.nodup ho
      refine ⟨by rw [h2]; exact List.nodup_nil, by rw [h2]; intro _ h; exact absurd h List.not_mem_nil, ?_, ?_⟩
      · intro c hc ha
        rcases ih.complete c hc ha with h1 | ⟨who, h1⟩ | h1
        · refine .inr (.inl ⟨.shutdown, List.mem_append_right _ ?_⟩)
          rw [h3]
          exact List.mem_map.2 ⟨c.ln, ho.mem_iff.2 h1, rfl⟩
        · exact .inr (.inl ⟨who, List.mem_append_left _ h1⟩)
        · exact .inr (.inr h1)
      · exact fun i c hi he => List.mem_append_left _ (ih.done i c hi he)

/-- C62: in every process, once `Shutdown` has returned, no listener is tracked; it has called `Close` once on
each listener tracked before and on no other; its result is the first error of these; and every listener that
was being served is closed now, by `Shutdown` or before, or another call of `Serve` with the same listener
is about to close it. -/
theorem C62_shutdown_closes {s : Sys} (h : Reachable s) (close : Ln → Option GoString) {order : List Ln} (ho : order.Perm s.listeners) :
    ∃ s', Step s s' ∧ s'.listeners = [] ∧ s'.closes = s.closes ++ order.map (·, .shutdown) ∧
      s'.results = s.results ++ [order.findSome? close] ∧ s'.calls = s.calls ∧
      (∀ ln, order.count ln = if ln ∈ s.listeners then 1 else 0) ∧
      ∀ c ∈ s'.calls, c.active → s'.Closed c.ln ∨ ∃ c' ∈ s'.calls, c'.ln = c.ln ∧ c'.isClosing := by
  have hi := reachable_inv h
  obtain ⟨h1, h2, h3, h4⟩ := C62_shutdown close hi.nodup ho
  have hs := Step.shutdown s close order ho
  have hi' := reachable_inv (.step h hs)
  rw [h1, h2, h3] at hs hi'
  refine ⟨_, hs, rfl, rfl, rfl, rfl, h4, ?_⟩
  intro c hc ha
  rcases hi'.complete c hc ha with h | h
  · cases h
  · exact h

theorem tracked_set {calls : List Serving} {i : Nat} {c0 c1 : Serving} (h0 : calls[i]? = some c0) (hln : c1.ln = c0.ln)
    (hb : c1.began = true) (ln : Ln) :
    tracked (calls.set i c1) ln = tracked calls ln + if c0.ln = ln ∧ c0.began = false then 1 else 0 := by
  obtain ⟨hi, h0⟩ := List.getElem?_eq_some_iff.1 h0
  unfold tracked
  rw [List.countP_set hi, h0]
  have hpos : (c0.ln == ln && c0.began) = true → 0 < calls.countP fun c => c.ln == ln && c.began := by
    intro h
    rw [List.countP_pos_iff]
    exact ⟨c0, by rw [← h0]; exact List.getElem_mem hi, h⟩
  rw [hln, hb]
  by_cases h1 : c0.ln = ln
  · cases h2 : c0.began with
    | true =>
      have := hpos (by simp [h1, h2])
      simp [h1]
      omega
    | false => simp [h1]
  · simp [h1]

theorem count_shutdown {ls : List Ln} (ln : Ln) : (ls.map fun x => (x, Closer.shutdown)).count (ln, .shutdown) = ls.count ln := by
  induction ls with
  | nil => rfl
  | cons a l ih =>
    simp only [List.map_cons, List.count_cons, ih]
    congr 1
    by_cases h : a = ln <;> simp [h]

/-- how often `Shutdown` has closed a listener, and will close it if called now -/
theorem closes_bound {s : Sys} (h : Reachable s) (ln : Ln) :
    s.closes.count (ln, .shutdown) + s.listeners.count ln ≤ tracked s.calls ln := by
  induction h with
  | init => exact Nat.le_refl 0
  | @step s s' hr hs ih =>
    have hnd := (reachable_inv hr).nodup
    cases hs with
    | call x =>
      simp only [tracked, List.countP_append] at ih ⊢
      omega
    | track i c0 h0 hp =>
      show s.closes.count (ln, .shutdown) + (trackListener s.listeners c0.ln true).count ln ≤ tracked (s.calls.set i _) ln
      rw [tracked_set (c1 := { c0 with pc := .accepting 0 }) h0 rfl rfl]
      have hb : c0.began = false := by unfold Serving.began; rw [hp]
      unfold trackListener
      simp only [if_true, hb, and_true]
      split
      · omega
      · rw [List.count_cons]
        by_cases he : c0.ln = ln
        · simp [he]; omega
        · simp [he]; exact ih
    | accept i c0 d a h0 hp =>
      show s.closes.count (ln, .shutdown) + s.listeners.count ln ≤ tracked (s.calls.set i _) ln
      rw [tracked_set (c1 := { c0 with pc := (acceptReturns d a).1, seen := c0.seen ++ [a], slept := c0.slept ++ (acceptReturns d a).2.1 }) h0 rfl
        (by unfold Serving.began; cases a <;> rfl)]
      omega
    | wake i c0 d h0 hp =>
      show s.closes.count (ln, .shutdown) + s.listeners.count ln ≤ tracked (s.calls.set i _) ln
      rw [tracked_set (c1 := { c0 with pc := .accepting d }) h0 rfl rfl]
      omega
    | untrack i c0 e h0 hp =>
      show s.closes.count (ln, .shutdown) + (trackListener s.listeners c0.ln false).count ln ≤ tracked (s.calls.set i _) ln
      rw [tracked_set (c1 := { c0 with pc := .closing e }) h0 rfl rfl]
      have : (trackListener s.listeners c0.ln false).count ln ≤ s.listeners.count ln := by
        unfold trackListener
        simp only [Bool.false_eq_true, if_false]
        exact (List.filter_sublist).count_le _
      omega
    | close i c0 e h0 hp =>
      show (s.closes ++ [(c0.ln, Closer.serve i)]).count (ln, .shutdown) + s.listeners.count ln ≤ tracked (s.calls.set i _) ln
      rw [tracked_set (c1 := { c0 with pc := .returned e }) h0 rfl rfl, List.count_append]
      have : [(c0.ln, Closer.serve i)].count (ln, .shutdown) = 0 := by simp
      omega
    | shutdown close order ho =>
      obtain ⟨_, h2, h3, _⟩ := C62_shutdown close hnd ho
      show (s.closes ++ _).count (ln, .shutdown) + List.count ln _ ≤ tracked s.calls ln
      rw [h2, h3, List.count_append, count_shutdown, ho.count_eq]
      simpa using ih

/-- C62: over the whole life of a process, the calls of `Shutdown` together close a listener at most as often as
`Serve` was called with it. -/
theorem C62_at_most_once {s : Sys} (h : Reachable s) (ln : Ln) :
    s.closes.count (ln, .shutdown) ≤ s.calls.countP fun c => c.ln == ln := by
  have h1 := closes_bound h ln
  have h2 : tracked s.calls ln ≤ s.calls.countP fun c => c.ln == ln := by
    refine List.countP_mono_left fun c _ hc => ?_
    simp only [Bool.and_eq_true] at hc
    exact hc.1
  omega

/-- no two calls of `Serve` have the same listener -/
def OncePerListener (s : Sys) : Prop :=
  ∀ (i j : Nat) (c d : Serving), s.calls[i]? = some c → s.calls[j]? = some d → c.ln = d.ln → i = j

/-- C62: if no listener is served twice, every listener in the accept loop is closed when `Shutdown` returns. -/
theorem C62_all_closed {s : Sys} (h : Reachable s) (hu : OncePerListener s) (hl : s.listeners = [])
    {c : Serving} (hc : c ∈ s.calls) (ha : c.active) : s.Closed c.ln := by
  rcases (reachable_inv h).complete c hc ha with h1 | h1 | ⟨c', h1, h2, e, h3⟩
  · rw [hl] at h1; cases h1
  · exact h1
  · obtain ⟨i, hi⟩ := List.mem_iff_getElem?.1 hc
    obtain ⟨j, hj⟩ := List.mem_iff_getElem?.1 h1
    have := hu j i c' c hj hi h2
    subst this
    rw [hi] at hj
    cases hj
    unfold Serving.active at ha
    rw [h3] at ha
    cases ha

/-- C63: when `Serve` has returned, its listener is closed; and it is forgotten unless another call of `Serve`
with the same listener is going on. -/
theorem C63_closed_and_forgotten {s : Sys} (h : Reachable s) {i : Nat} {c : Serving} {e : GoString} (hi : s.calls[i]? = some c)
    (he : c.pc = .returned e) :
    s.Closed c.ln ∧ (c.ln ∈ s.listeners → ∃ j d, j ≠ i ∧ s.calls[j]? = some d ∧ d.ln = c.ln ∧ d.active) := by
  have hinv := reachable_inv h
  refine ⟨⟨_, hinv.done i c hi ⟨e, he⟩⟩, ?_⟩
  intro hm
  obtain ⟨d, hd, hdl, hda⟩ := hinv.sound _ hm
  obtain ⟨j, hj⟩ := List.mem_iff_getElem?.1 hd
  refine ⟨j, d, ?_, hj, hdl, hda⟩
  rintro rfl
  rw [hi] at hj
  cases hj
  unfold Serving.active at hda
  rw [he] at hda
  cases hda

/-! ### Examples -/

/-- two listeners are served; one has seen two temporary errors and sleeps, the other is waiting in
`Accept` -/
def twoServed : Sys where
  listeners := [4, 3]
  calls := [{ ln := 3, pc := .sleeping 10000000, seen := [.temporary [1], .temporary [2]], slept := [5000000, 10000000] },
    { ln := 4, pc := .accepting 0 }]

theorem twoServed_reachable : Reachable twoServed := by
  have h : Reachable _ := .step (.step (.step (.step (.step (.step (.step .init (.call _ 3)) (.track _ 0 _ rfl rfl)) (.accept _ 0 _ 0 (.temporary [1]) rfl rfl))
    (.wake _ 0 _ _ rfl rfl)) (.accept _ 0 _ _ (.temporary [2]) rfl rfl)) (.call _ 4)) (.track _ 1 _ rfl rfl)
  exact h

/-- C62: closing the first one fails -/
example : ∃ s', Step twoServed s' ∧ s'.listeners = [] ∧ s'.closes = [(4, .shutdown), (3, .shutdown)] ∧ s'.results = [some [9]] := by
  obtain ⟨s', h1, h2, h3, h4, _⟩ := C62_shutdown_closes twoServed_reachable (fun ln => if ln = 4 then some [9] else some [8]) (order := [4, 3])
    (List.Perm.refl _)
  exact ⟨s', h1, h2, h3, h4⟩

/-- C62 is about listeners in the accept loop.  A `Shutdown` that comes between the call of `Serve` and its
`trackListener` does not see the listener, which is then served as if nothing had happened. -/
theorem C62_too_early : ∃ s s', Reachable s ∧ Step s s' ∧ s'.results = [none] ∧ s'.calls = [{ ln := 3, pc := .entered }] ∧
    ∃ s'', Reachable s'' ∧ s''.results = [none] ∧ s''.conns = [7] ∧ s''.closes = [] :=
  ⟨_, _, .step .init (.call _ 3), .shutdown _ (fun _ => none) [] (List.Perm.refl _), rfl, rfl, _,
    .step (.step (.step (.step .init (.call _ 3)) (.shutdown _ (fun _ => none) [] (List.Perm.refl _))) (.track _ 0 _ rfl rfl))
      (.accept _ 0 _ 0 (.conn 7) rfl rfl), rfl, rfl, rfl⟩

/-- C63: nine errors in a row, a connection, another error -/
example : waits 0 ((List.replicate 9 (.temporary [])) ++ [.conn 1, .temporary []]) =
    [5000000, 10000000, 20000000, 40000000, 80000000, 160000000, 320000000, 640000000, 1000000000, 5000000] := rfl

/-- C63: a permanent error ends the call -/
example : ∃ s, Reachable s ∧ s.calls = [{ ln := 3, pc := .returned [1], seen := [.permanent [1]] }] ∧
    s.closes = [(3, .serve 0)] ∧ s.listeners = [] :=
  ⟨_, .step (.step (.step (.step (.step .init (.call _ 3)) (.track _ 0 _ rfl rfl)) (.accept _ 0 _ 0 (.permanent [1]) rfl rfl))
    (.untrack _ 0 _ [1] rfl rfl)) (.close _ 0 _ [1] rfl rfl), rfl, rfl, rfl⟩

/-- some steps of the process -/
inductive Steps : Sys → Sys → Prop
  | refl (s : Sys) : Steps s s
  | step {s s' s'' : Sys} : Steps s s' → Step s' s'' → Steps s s''

theorem upd_self (s : Sys) {i : Nat} {c : Serving} (hi : s.calls[i]? = some c) (c' : Serving) : (s.calls.set i c')[i]? = some c' := by
  have := (List.getElem?_eq_some_iff.1 hi).1
  simp [this]

/-- C63: nobody has to wait for a call of `Serve` but for `Accept`.  As long as `Accept` has not returned a permanent error
the call comes back to it, after the last sleep.  When it has, the call closes the listener, once, and returns the
error; it neither accepts another connection nor touches other calls. -/
theorem C63_goes_on {s : Sys} (h : Reachable s) {i : Nat} {c : Serving} (hi : s.calls[i]? = some c) :
    ((∀ a ∈ c.seen, a.goesOn) → ∃ s' d, Steps s s' ∧ s'.calls = s.calls.set i { c with pc := .accepting d } ∧
      s'.closes = s.closes ∧ s'.conns = s.conns) ∧
    (∀ l e, c.seen = l ++ [.permanent e] → c.pc ≠ .returned e → ∃ s', Steps s s' ∧ s'.calls = s.calls.set i { c with pc := .returned e } ∧
      s'.closes = s.closes ++ [(c.ln, .serve i)] ∧ s'.conns = s.conns ∧ s'.results = s.results) := by
  have hk := reachable_callOk h c (List.mem_of_getElem? hi)
  have hset : ∀ x y : Serving, (s.calls.set i x).set i y = s.calls.set i y := fun x y => by simp
  have same : s.calls.set i c = s.calls := by
    apply List.ext_getElem?
    intro j
    by_cases hj : i = j
    · subst hj; rw [upd_self s hi, hi]
    · simp [List.getElem?_set_ne hj]
  have bad : ∀ {l : List Accepted} {e : GoString}, c.seen = l ++ [.permanent e] → ¬ ∀ a ∈ c.seen, a.goesOn := by
    intro l e h1 h2
    exact h2 (.permanent e) (by simp [h1])
  have eq : ∀ {l l' : List Accepted} {e e' : GoString}, c.seen = l ++ [.permanent e] → c.seen = l' ++ [.permanent e'] → e = e' := by
    intro l l' e e' h1 h2
    have := (List.append_inj' (h1.symm.trans h2) rfl).2
    simpa using this
  unfold CallOk at hk
  refine ⟨fun hg => ?_, fun l e hl hnr => ?_⟩
  · match hp : c.pc with
    | .entered => exact ⟨_, 0, .step (.refl _) (.track s i c hi hp), rfl, rfl, rfl⟩
    | .accepting d =>
      refine ⟨s, d, .refl _, ?_, rfl, rfl⟩
      rw [← hp, same]
    | .sleeping d => exact ⟨_, d, .step (.refl _) (.wake s i c d hi hp), rfl, rfl, rfl⟩
    | .untracking e | .closing e | .returned e =>
      rw [hp] at hk
      obtain ⟨-, l, h1, -⟩ := hk
      exact absurd hg (bad h1)
  · match hp : c.pc with
    | .entered =>
      rw [hp] at hk
      have : c.seen = [] := hk.2
      rw [this] at hl
      simp at hl
    | .accepting d | .sleeping d =>
      rw [hp] at hk
      exact absurd hk.2.1 (bad hl)
    | .untracking e' =>
      rw [hp] at hk
      obtain ⟨-, l', h1, -⟩ := hk
      obtain rfl := eq h1 hl
      have hi1 : (s.calls.set i { c with pc := .closing e' })[i]? = some { c with pc := .closing e' } := upd_self s hi _
      refine ⟨_, .step (.step (.refl _) (.untrack s i c e' hi hp)) (.close _ i _ e' hi1 rfl), ?_, rfl, rfl, rfl⟩
      simp [Sys.upd, hset]
    | .closing e' =>
      rw [hp] at hk
      obtain ⟨-, l', h1, -⟩ := hk
      obtain rfl := eq h1 hl
      exact ⟨_, .step (.refl _) (.close s i c e' hi hp), rfl, rfl, rfl, rfl⟩
    | .returned e' =>
      rw [hp] at hk
      obtain ⟨-, l', h1, -⟩ := hk
      obtain rfl := eq h1 hl
      exact absurd hp hnr

/-- C63: calls of both kinds -/
example : ∃ s c c', Reachable s ∧ s.calls = [c, c'] ∧ c.seen = [] ++ [.permanent [1]] ∧ c.pc ≠ .returned [1] ∧ c'.seen = [.temporary [2]] ∧ ∀ a ∈ c'.seen, a.goesOn :=
  ⟨_, _, _, .step (.step (.step (.step (.step (.step .init (.call _ 3)) (.call _ 4)) (.track _ 0 _ rfl rfl)) (.accept _ 0 _ 0 (.permanent [1]) rfl rfl))
    (.track _ 1 _ rfl rfl)) (.accept _ 1 _ 0 (.temporary [2]) rfl rfl), rfl, rfl, nofun, rfl, by simp [Accepted.goesOn]⟩

end Ninep.Listen
