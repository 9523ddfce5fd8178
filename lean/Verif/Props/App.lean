import Verif.Client.App
import Verif.Props.Exact
import Verif.Props.Client

set_option linter.unusedSimpArgs false
set_option linter.unusedVariables false

/-!
# One server cannot end a program that talks to others (C90)

False: a server that closes its connection ends the program.  Proved: the exact conditions under which a program with
any number of clients can end at its next step, and that it does not end while the servers abide by the protocol, keep
their connections open, and the clients have tracers.
-/

namespace Ninep.Client
open Spec

theorem isPanic_iff (r : Recv) : r.isPanic = true ↔ r = .panicked := by cases r <;> simp [Recv.isPanic]

/-- when the lookup of a reply panics -/
theorem lookup_panics (trace : Bool) (s : State) (r : Reply) :
    lookup trace s.rpc r.bytes = .panicked ↔ trace = false ∨
      (pktTag r.bytes).toNat = 0 ∨ (pktTag r.bytes).toNat = 65535 ∨ s.rpc ((pktTag r.bytes).toNat - 1) = none := by
  have hlt := (pktTag r.bytes).toNat_lt
  cases trace with
  | false => simp [lookup_false]
  | true =>
    have := (C31_exact_partial { s with recv := .got r } r rfl).1
    simp only [Bool.true_eq_false, false_or]
    rw [← this]
    constructor
    · intro h
      exact ⟨.client, _, Step.lookup _ r rfl, h⟩
    · rintro ⟨l, s', hs, hp⟩
      cases hs with
      | lookup _ r' hr => cases hr; exact hp
      | handOverNil _ h1 h2 => cases h2
      | handOver => cases hp
      | deliver => cases hp
      | retag => cases hp
      | _ => cases hp

/-- every client of a running program is alive -/
theorem app_alive {trace : Nat → Bool} {L : AppLabel → Prop} {p : App} (he : AppExec trace L App.start p) (hx : p.exited = false) :
    ∀ i, Alive (p.cl i) := by
  induction he with
  | refl => intro i; simp [Alive, App.start, init]
  | step p1 p2 l _ _ hs ih =>
    cases hs with
    | writeFails => cases hx
    | client _ i l s' h0 hst =>
      intro j
      dsimp only at hx ⊢
      by_cases hj : j = i
      · subst hj
        rw [upd_same]
        intro h
        rw [(isPanic_iff _).2 h] at hx
        cases hx
      · rw [upd_other _ _ hj]; exact ih h0 j

/-- **C90**, exactly: a running program can end at its next step if and only if in one of its clients the sender is
at the `Write` (which may fail), the connection has ended and the receiver waits for the next reply, or the receiver
holds a reply and there is no tracer or the tag of the reply is 0 or 65535 or was never used. -/
theorem C90_exact_partial (trace : Nat → Bool) (p : App)
    (he : AppExec trace (fun _ => True) App.start p) (hx : p.exited = false) :
    (∃ l p', AppStep trace l p p' ∧ p'.exited = true) ↔
      ∃ i, (∃ c t, (p.cl i).sender = .stored c t) ∨ ((p.cl i).reader = .stopped ∧ (p.cl i).recv = .idle) ∨
        ∃ r, (p.cl i).recv = .got r ∧ (trace i = false ∨ (pktTag r.bytes).toNat = 0 ∨ (pktTag r.bytes).toNat = 65535 ∨
          (p.cl i).rpc ((pktTag r.bytes).toNat - 1) = none) := by
  constructor
  · rintro ⟨l, p', hs, hp⟩
    cases hs with
    | writeFails _ i c t _ h => exact ⟨i, .inl ⟨c, t, h⟩⟩
    | client _ i l s' _ hst =>
      refine ⟨i, ?_⟩
      rw [isPanic_iff] at hp
      have hal : Alive (p.cl i) := app_alive he hx i
      generalize p.cl i = s at hst hal ⊢
      cases hst with
      | handOverNil _ h1 h2 => exact .inr (.inl ⟨h1, h2⟩)
      | lookup _ r hr => exact .inr (.inr ⟨r, hr, (lookup_panics (trace i) s r).1 hp⟩)
      | handOver => cases hp
      | deliver => cases hp
      | retag => cases hp
      | _ => exact absurd hp hal
  · rintro ⟨i, ⟨c, t, h⟩ | ⟨h1, h2⟩ | ⟨r, h1, h2⟩⟩
    · exact ⟨_, _, AppStep.writeFails p i c t hx h, rfl⟩
    · exact ⟨_, _, AppStep.client p i .client _ hx (Step.handOverNil _ h1 h2), rfl⟩
    · exact ⟨_, _, AppStep.client p i .client _ hx (Step.lookup _ r h1), by
        rw [isPanic_iff]; exact (lookup_panics (trace i) (p.cl i) r).2 h2⟩

/-- what client `i` sees of a step -/
def seenBy (i : Nat) : AppLabel → Label → Prop
  | .client j l, l' => j = i ∧ l = l'
  | .writeFails _, _ => False

/-- a client of a program that has not ended behaves as if it were alone -/
theorem app_client {trace : Nat → Bool} {L : AppLabel → Prop} {p : App} (he : AppExec trace L App.start p) (i : Nat) :
    Exec (trace i) (fun l => ∃ al, L al ∧ seenBy i al l) init (p.cl i) := by
  induction he with
  | refl => exact Exec.refl _
  | step p1 p2 l h1 hl hs ih =>
    cases hs with
    | writeFails => exact ih
    | client _ j l s' h0 hst =>
      dsimp only
      by_cases hj : i = j
      · subst hj
        rw [upd_same]
        exact Exec.step _ _ _ l ih ⟨_, hl, rfl, rfl⟩ (app_alive h1 h0 i) hst
      · rw [upd_other _ _ hj]; exact ih

theorem exec_weaken {trace : Bool} {L L' : Label → Prop} (hL : ∀ l, L l → L' l) {s s' : State} (h : Exec trace L s s') : Exec trace L' s s' := by
  induction h with
  | refl => exact Exec.refl _
  | step a b l _ hl hal hst ih => exact Exec.step _ _ _ l ih (hL l hl) hal hst

/-- the steps of a program whose servers abide by the protocol and keep their connections open, and whose writes
succeed -/
def Orderly : AppLabel → Prop
  | .client _ l => Serving l
  | .writeFails _ => False

/-- **C90**, the part that holds: if all clients have tracers, all servers only answer requests and keep their
connections open, and no write fails, the program never ends, and each client behaves like a single client of a program
(so that C25 to C30 hold for it). -/
theorem C90_orderly_partial (trace : Nat → Bool) (ht : ∀ i, trace i = true) (p : App) (he : AppExec trace Orderly App.start p) :
    p.exited = false ∧ ∀ i, Exec true Serving init (p.cl i) := by
  have hcl : ∀ {q : App}, AppExec trace Orderly App.start q → ∀ i, Exec true Serving init (q.cl i) := by
    intro q hq i
    have := app_client hq i
    rw [ht i] at this
    refine exec_weaken ?_ this
    rintro l ⟨al, hal, hs⟩
    cases al with
    | writeFails => exact hs.elim
    | client j l' => obtain ⟨-, rfl⟩ := hs; exact hal
  refine ⟨?_, hcl he⟩
  cases he with
  | refl => rfl
  | step p1 _ l h1 hl hs =>
    have hp := hcl (AppExec.step _ _ _ l h1 hl hs)
    cases hs with
    | writeFails => exact hl.elim
    | client _ i l s' h0 hst =>
      have := C30_no_panic _ (hp i)
      dsimp only at this ⊢
      rw [upd_same] at this
      cases hb : s'.recv.isPanic with
      | false => rfl
      | true => exact absurd ((isPanic_iff _).1 hb) this

/-- a step of client `i` or its server that needs no new call -/
def appOwn (i : Nat) : AppLabel → Prop
  | .client j l => j = i ∧ Internal l
  | .writeFails _ => False

/-- **C90** is false: if a server that otherwise abides by the protocol closes its connection, the program ends, whatever
the other clients do.  As long as the program has not ended the client of this connection can go on; and it cannot go on
for ever unless it is used for new calls again and again.  Nothing happens in a program that has ended. -/
theorem C90_counterexample (trace : Nat → Bool) (i : Nat) (ht : trace i = true) (p : App)
    (he : AppExec trace (fun al => ∀ l, seenBy i al l → Abiding l) App.start p) (hc : (p.cl i).closed = true) :
    (p.exited = false → ∃ l p', appOwn i l ∧ AppStep trace l p p') ∧
    (∀ (f : Nat → App) (ls : Nat → AppLabel), f 0 = p →
      (∀ k, AppStep trace (ls k) (f k) (f (k + 1)) ∧ ∀ l, seenBy i (ls k) l → Internal l) → ∃ k0, ∀ k, k0 ≤ k → ¬ appOwn i (ls k)) ∧
    (p.exited = true → ∀ l p', ¬ AppStep trace l p p') := by
  refine ⟨?_, ?_, ?_⟩
  · intro hx
    have hex := app_client he i
    rw [ht] at hex
    have hex : Exec true Abiding init (p.cl i) := exec_weaken (by rintro l ⟨al, h1, h2⟩; exact h1 l h2) hex
    obtain ⟨l, s', hl, hst⟩ := (C32_counterexample _ hex hc).2 _ (Exec.refl _) (app_alive he hx i)
    exact ⟨.client i l, _, ⟨rfl, hl⟩, AppStep.client p i l s' hx (by rw [ht]; exact hst)⟩
  · intro f ls _ hs
    have hw : ∀ k, work ((f (k + 1)).cl i) ≤ work ((f k).cl i) ∧ (appOwn i (ls k) → work ((f (k + 1)).cl i) < work ((f k).cl i)) := by
      intro k
      obtain ⟨h1, h2⟩ := hs k
      generalize ls k = l at h1 h2
      generalize f (k + 1) = q' at h1
      generalize f k = q at h1
      cases h1 with
      | writeFails => exact ⟨Nat.le_refl _, fun h => h.elim⟩
      | client _ j l s' h0 hst =>
        dsimp only
        by_cases hj : i = j
        · subst hj
          rw [upd_same]
          have := work_step (h2 l ⟨rfl, rfl⟩) hst
          exact ⟨Nat.le_of_lt this, fun _ => this⟩
        · rw [upd_other _ _ hj]
          exact ⟨Nat.le_refl _, fun h => absurd h.1.symm hj⟩
    have mono : ∀ k d, work ((f (k + d)).cl i) ≤ work ((f k).cl i) := by
      intro k d
      induction d with
      | zero => exact Nat.le_refl _
      | succ d ih => exact Nat.le_trans (hw (k + d)).1 ih
    have key : ∀ v k, work ((f k).cl i) ≤ v → ∃ k0, ∀ k, k0 ≤ k → ¬ appOwn i (ls k) := by
      intro v
      induction v with
      | zero =>
        intro k hk
        refine ⟨k, fun j hj ho => ?_⟩
        have h1 := mono k (j - k)
        rw [Nat.add_sub_cancel' hj] at h1
        have h2 := (hw j).2 ho
        omega
      | succ v ih =>
        intro k hk
        by_cases hex : ∃ j, k ≤ j ∧ appOwn i (ls j)
        · obtain ⟨j, hj, ho⟩ := hex
          have h1 := mono k (j - k)
          rw [Nat.add_sub_cancel' hj] at h1
          have h2 := (hw j).2 ho
          exact ih (j + 1) (by omega)
        · exact ⟨k, fun j hj ho => hex ⟨j, hj, ho⟩⟩
    exact key _ 0 (Nat.le_refl _)
  · intro hx l p' hs
    cases hs with
    | client _ _ _ _ h => rw [hx] at h; cases h
    | writeFails _ _ _ _ h => rw [hx] at h; cases h

/-- C90_counterexample: the server of client 0 closes its connection while client 1 has a call under way -/
example : ∃ p, AppExec (fun _ => true) (fun al => ∀ l, seenBy 0 al l → Abiding l) App.start p ∧ (p.cl 0).closed = true ∧
    (p.cl 1).phase 0 = .sending ∧ p.exited = false := by
  refine ⟨_, AppExec.step _ _ _ _ (AppExec.step _ _ _ _ (AppExec.refl _) ?_
    (AppStep.client App.start 1 .call _ rfl (Step.call init 0 (.clunk { OFID := 7 }) rfl))) ?_
    (AppStep.client _ 0 .close _ rfl (Step.close _)), rfl, ?_, rfl⟩
  · rintro l ⟨h, -⟩; cases h
  · rintro l ⟨-, rfl⟩; trivial
  · simp [upd]

/-- C90_orderly_partial: a program with a call under way -/
example : ∃ p, AppExec (fun _ => true) Orderly App.start p ∧ (p.cl 1).phase 0 = .sending :=
  ⟨_, AppExec.step _ _ _ (.client 1 .call) (AppExec.refl _) (show Serving .call from trivial)
    (AppStep.client App.start 1 .call _ rfl (Step.call init 0 (.clunk { OFID := 7 }) rfl)), by simp [upd]⟩

end Ninep.Client
