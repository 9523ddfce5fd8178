import Verif.Client.Busy
import Verif.Lemmas.Tame
import Verif.Props.Bytes

set_option linter.unusedSimpArgs false
set_option linter.unusedVariables false

/-!
# Executions of clients whose requests overlap, step by step

For the examples beside C93 and the counterexample of C94.
-/

namespace Ninep.Client
open Spec Ufs
variable {ω H : Type}

theorem BExec.trans {host : Host ω H} {user : GoString} {a b c : Busy ω H} {l1 l2 : List (BLabel ω H)} (h1 : BExec host user a l1 b)
    (h2 : BExec host user b l2 c) : BExec host user a (l1 ++ l2) c := by
  induction h2 with
  | refl => rw [List.append_nil]; exact h1
  | step _ hs ih => rw [← List.append_assoc]; exact .step ih hs

/-- no other process changes the world -/
def Inside (ls : List (BLabel ω H)) : Prop := ∀ w, BLabel.other w ∉ ls

/-- `n` goes to `n'` without other processes -/
def Goes (host : Host ω H) (user : GoString) (n n' : Busy ω H) : Prop := ∃ ls, Inside ls ∧ BExec host user n ls n'

theorem Goes.refl {host : Host ω H} {user : GoString} (n : Busy ω H) : Goes host user n n := ⟨[], by simp [Inside], .refl _⟩

theorem Goes.trans {host : Host ω H} {user : GoString} {a b c : Busy ω H} (h1 : Goes host user a b) (h2 : Goes host user b c) : Goes host user a c := by
  obtain ⟨l1, i1, e1⟩ := h1
  obtain ⟨l2, i2, e2⟩ := h2
  refine ⟨_, ?_, e1.trans e2⟩
  intro w hw
  rcases List.mem_append.1 hw with h | h
  · exact i1 w h
  · exact i2 w h

theorem Goes.step {host : Host ω H} {user : GoString} {a b : Busy ω H} {l : BLabel ω H} (hl : ∀ w, l ≠ .other w) (h : BStep host user l a b) :
    Goes host user a b :=
  ⟨[] ++ [l], fun w hw => by simp at hw; exact hl w hw.symm, .step (.refl _) h⟩

/-- a client without work, with a free tag; the calls from number `k` on have not been made yet -/
structure Ready (s : State) (k : Nat) : Prop where
  sending : s.sending = []
  fromClient : s.fromClient = []
  sender : s.sender = .idle
  wire : s.wire = []
  fromNet : s.fromNet = []
  reader : s.reader = .idle
  recv : s.recv = .idle
  phase : ∀ c, k ≤ c → s.phase c = .idle
  tags : ∃ t ts, s.tags = t :: ts

/-- a client that waits for the answer to call `k` -/
structure Asked (s : State) (k : Nat) (m : TMsg) (t : Tag) : Prop where
  sending : s.sending = []
  fromClient : s.fromClient = []
  sender : s.sender = .idle
  wire : s.wire = [(k, setTag (encodeT {} 0 m).bytes t)]
  fromNet : s.fromNet = []
  reader : s.reader = .idle
  recv : s.recv = .idle
  phase : ∀ c, k + 1 ≤ c → s.phase c = .idle
  waiting : s.phase k = .waiting
  rpc : s.rpc (t.toNat - 1) = some k

/-- client `i` of `n` goes on alone -/
theorem busy_alone {host : Host ω H} {user : GoString} {i : Nat} {s s' : State} (he : Exec true ClientSide s s') (n : Busy ω H) (hs : n.cl i = s) :
    Goes host user n { n with cl := upd n.cl i s' } := by
  induction he with
  | refl =>
    have : upd n.cl i s = n.cl := by
      funext j; by_cases hj : j = i
      · subst hj; rw [upd_same, hs]
      · rw [upd_other _ _ hj]
    rw [this]
    exact .refl _
  | step a b l _ hl hal hst ih =>
    have := BStep.client (host := host) (user := user) { n with cl := upd n.cl i a } i l b hl (by dsimp only; rw [upd_same]; exact hal) (by dsimp only; rw [upd_same]; exact hst)
    have put : upd (upd n.cl i a) i b = upd n.cl i b := by
      funext j; by_cases hj : j = i
      · subst hj; rw [upd_same, upd_same]
      · rw [upd_other _ _ hj, upd_other _ _ hj, upd_other _ _ hj]
    dsimp only at this
    rw [put] at this
    exact ih.trans (.step (by simp) this)

theorem ready_ask {s : State} {k : Nat} (h : Ready s k) (m : TMsg) :
    ∃ s' t ts, s.tags = t :: ts ∧ Exec true ClientSide s s' ∧ Asked s' k m t ∧ s'.tags = ts ∧ s'.msg = upd s.msg k (some m) ∧
      ∀ c, c ≠ k → s'.phase c = s.phase c := by
  obtain ⟨t, ts, ht⟩ := h.tags
  have hal : s.recv ≠ .panicked := by rw [h.recv]; simp
  have e1 := Exec.step _ _ _ .call (Exec.refl (trace := true) (L := ClientSide) s) trivial hal (Step.call s k m (h.phase k (Nat.le_refl _)))
  have e2 := Exec.step _ _ _ .client e1 trivial hal (Step.enqueue _ [] [] k (by simp [h.sending]) (by simp [h.fromClient, NumTags, NOTAG]))
  have e3 := Exec.step _ _ _ .client e2 trivial hal (Step.takeReq _ k [] h.sender (by simp [h.fromClient]))
  have e4 := Exec.step _ _ _ .client e3 trivial hal (Step.takeTag _ k t ts rfl ht)
  have e5 := Exec.step _ _ _ .client e4 trivial hal (Step.putTag _ k t rfl)
  have e6 := Exec.step _ _ _ .client e5 trivial hal (Step.store _ k t rfl)
  have e7 := Exec.step _ _ _ .client e6 trivial hal (Step.write _ k t rfl)
  refine ⟨_, t, ts, ht, e7, ⟨rfl, rfl, rfl, ?_, h.fromNet, h.reader, h.recv, ?_, ?_, ?_⟩, rfl, rfl, ?_⟩
  · simp [h.wire, upd_same]
  · intro c hc
    dsimp only
    rw [upd_other _ _ (by omega), upd_other _ _ (by omega)]
    exact h.phase c (by omega)
  · exact upd_same _ _ _
  · exact upd_same _ _ _
  · intro c hc
    dsimp only
    rw [upd_other _ _ hc, upd_other _ _ hc]

/-- `j` calls of the operating system made by `p` -/
def progSteps (host : Host ω H) {α : Type} : Nat → Prog H α → ω → Prog H α × ω
  | 0, p, w => (p, w)
  | j + 1, .call x k, w => progSteps host j (k (host.exec x w).2) (host.exec x w).1
  | _ + 1, p, w => (p, w)

theorem busy_calls {host : Host ω H} {user : GoString} {i : Nat} (j : Nat) (p : Prog H (Ufs.Served H)) (n : Busy ω H) (hr : (n.con i).running = some p) :
    Goes host user n { n with con := upd n.con i { n.con i with running := some (progSteps host j p n.world).1 }, world := (progSteps host j p n.world).2 } := by
  have same : ∀ (n : Busy ω H) p, (n.con i).running = some p → ({ n with con := upd n.con i { n.con i with running := some p }, world := n.world } : Busy ω H) = n := by
    intro n p hr
    have : upd n.con i { n.con i with running := some p } = n.con := by
      funext j; by_cases hj : j = i
      · subst hj; rw [upd_same, ← hr]
      · rw [upd_other _ _ hj]
    rw [this]
  have put : ∀ (f : Nat → Con H) c d, upd (upd f i c) i d = upd f i d := by
    intro f c d; funext j; by_cases hj : j = i
    · subst hj; rw [upd_same, upd_same]
    · rw [upd_other _ _ hj, upd_other _ _ hj, upd_other _ _ hj]
  induction j generalizing p n with
  | zero =>
    simp only [progSteps]
    rw [same n p hr]
    exact .refl _
  | succ j ih =>
    cases p with
    | ret a =>
      simp only [progSteps]
      rw [same n _ hr]
      exact .refl _
    | panic =>
      simp only [progSteps]
      rw [same n _ hr]
      exact .refl _
    | call x k =>
      simp only [progSteps]
      have h := ih (k (host.exec x n.world).2)
        { n with con := upd n.con i { n.con i with running := some (k (host.exec x n.world).2) }, world := (host.exec x n.world).1 }
        (by dsimp only; rw [upd_same])
      dsimp only at h
      rw [upd_same, put] at h
      exact (Goes.step (by simp) (BStep.call n i x k hr)).trans h

theorem asked_tell {s : State} {k : Nat} {m : TMsg} {t : Tag} (h : Asked s k m t) (q p : Bytes) (hp : pktTag p = t) (h1 : ¬ t < 1)
    (h2 : ¬ t.toNat - 1 ≥ NumTags) (h3 : s.tags.length < NumTags) :
    ∃ s', Exec true ClientSide (answeredWith s k q [] p) s' ∧ Ready s' (k + 1) ∧ s'.phase k = .done p ∧ s'.tags = s.tags ++ [t] ∧ s'.msg = s.msg ∧
      ∀ c, c ≠ k → s'.phase c = s.phase c := by
  have hal : s.recv ≠ .panicked := by rw [h.recv]; simp
  have e1 := Exec.step _ _ _ .client (Exec.refl (trace := true) (L := ClientSide) (answeredWith s k q [] p)) trivial hal
    (Step.read _ ⟨some k, p⟩ [] h.reader (by simp [answeredWith, h.fromNet]))
  have e2 := Exec.step _ _ _ .client e1 trivial hal (Step.handOver _ ⟨some k, p⟩ rfl h.recv)
  have e3 := Exec.step _ _ _ .client e2 trivial (by simp [Alive]) (Step.lookup _ ⟨some k, p⟩ rfl)
  have hlk : lookup true s.rpc p = .found k t p := by
    unfold lookup
    rw [hp]
    dsimp only
    rw [if_neg h1, if_neg h2, if_neg (by simp), h.rpc]
  have e4 := Exec.step _ _ _ .client e3 trivial (by simp [Alive, answeredWith, hlk]) (Step.deliver _ k t p hlk h.waiting)
  have e5 := Exec.step _ _ _ .client e4 trivial (by simp [Alive]) (Step.retag _ t rfl h3)
  refine ⟨_, e5, ⟨h.sending, h.fromClient, h.sender, rfl, rfl, rfl, rfl, ?_, ?_⟩, ?_, rfl, rfl, ?_⟩
  · intro c hc
    dsimp only
    rw [upd_other _ _ (by omega)]
    exact h.phase c hc
  · cases hts : s.tags with
    | nil => exact ⟨t, [], by simp [answeredWith, hts]⟩
    | cons a b => exact ⟨a, b ++ [t], by simp [answeredWith, hts]⟩
  · exact upd_same _ _ _
  · intro c hc
    dsimp only
    rw [upd_other _ _ hc]
    rfl

/-- call `k` of client `i` is made and put on the wire -/
theorem busy_ask {host : Host ω H} {user : GoString} {i k : Nat} {t : Tag} {ts : List Tag} (n : Busy ω H) (h : Ready (n.cl i) k)
    (ht : (n.cl i).tags = t :: ts) (m : TMsg) :
    ∃ n', Goes host user n n' ∧ n'.con = n.con ∧ n'.world = n.world ∧ (∀ j, j ≠ i → n'.cl j = n.cl j) ∧ Asked (n'.cl i) k m t ∧ (n'.cl i).tags = ts ∧
      (n'.cl i).msg = upd (n.cl i).msg k (some m) ∧ ∀ c, c ≠ k → (n'.cl i).phase c = (n.cl i).phase c := by
  obtain ⟨s', t', ts', h1, h2, h3, h4, h5, h6⟩ := ready_ask h m
  rw [ht] at h1
  cases h1
  refine ⟨_, busy_alone h2 n rfl, rfl, rfl, fun j hj => upd_other _ _ hj, ?_, ?_, ?_, ?_⟩ <;> dsimp only <;> rw [upd_same] <;> assumption

/-- the answer to call `k` of client `i` is written, and the call returns -/
theorem busy_tell {host : Host ω H} {user : GoString} {i k : Nat} {m : TMsg} {t : Tag} {o : Obj H} {v : Bool} {b : Buffer} (n : Busy ω H)
    (h : Asked (n.cl i) k m t) (hr : (n.con i).running = some (.ret (o, v, b))) (hp : pktTag b.bytes = t) (h1 : ¬ t < 1)
    (h2 : ¬ t.toNat - 1 ≥ NumTags) (h3 : (n.cl i).tags.length < NumTags) :
    ∃ n', Goes host user n n' ∧ n'.con = upd n.con i { obj := o } ∧ n'.world = n.world ∧ (∀ j, j ≠ i → n'.cl j = n.cl j) ∧ Ready (n'.cl i) (k + 1) ∧
      (n'.cl i).phase k = .done b.bytes ∧ (n'.cl i).tags = (n.cl i).tags ++ [t] ∧ (n'.cl i).msg = (n.cl i).msg ∧
      ∀ c, c ≠ k → (n'.cl i).phase c = (n.cl i).phase c := by
  have e := BStep.reply (host := host) (user := user) n i k _ [] o v b h.wire hr
  obtain ⟨s', g1, g2, g3, g4, g5, g6⟩ := asked_tell h (setTag (encodeT {} 0 m).bytes t) b.bytes hp h1 h2 h3
  have he := busy_alone (host := host) (user := user) (i := i) g1
    { n with cl := upd n.cl i (answeredWith (n.cl i) k (setTag (encodeT {} 0 m).bytes t) [] b.bytes), con := upd n.con i { obj := o } } (upd_same _ _ _)
  have put : ∀ (f : Nat → State) c d, upd (upd f i c) i d = upd f i d := by
    intro f c d; funext j; by_cases hj : j = i
    · subst hj; rw [upd_same, upd_same]
    · rw [upd_other _ _ hj, upd_other _ _ hj, upd_other _ _ hj]
  dsimp only at he
  rw [put] at he
  refine ⟨_, (Goes.step (by simp) e).trans he, rfl, rfl, fun j hj => upd_other _ _ hj, ?_, ?_, ?_, ?_, ?_⟩ <;> dsimp only <;> rw [upd_same] <;> assumption

theorem init_tags_length {t : Tag} {ts : List Tag} (h : init.tags = t :: ts) : ts.length < NumTags := by
  have : init.tags.length = 65534 := by
    unfold init
    rw [List.length_map, List.length_range]
    decide
  rw [h] at this
  simp at this
  unfold NumTags
  omega

theorem init_ready : Ready init 0 := by
  obtain ⟨ts, h⟩ := init_tags
  exact ⟨rfl, rfl, rfl, rfl, rfl, rfl, rfl, fun _ _ => rfl, _, _, h⟩

/-- the program for a request that was put on the wire with tag `t` -/
def reqProg (user : GoString) (o : Obj H) (m : TMsg) (t : Tag) : Prog H (Ufs.Served H) :=
  pdispatch user o true ⟨[], (setTag (encodeT {} 0 m).bytes t).drop 5, []⟩ ((setTag (encodeT {} 0 m).bytes t).getD 4 0)

/-- the server takes the request of client `i` and makes `j` calls of the operating system -/
theorem busy_begin {host : Host ω H} {user : GoString} {i k : Nat} {m : TMsg} {t : Tag} (j : Nat) (n : Busy ω H) (h : Asked (n.cl i) k m t)
    (hr : (n.con i).running = none) :
    ∃ n', Goes host user n n' ∧ n'.cl = n.cl ∧ (∀ j, j ≠ i → n'.con j = n.con j) ∧
      n'.world = (progSteps host j (reqProg user (n.con i).obj m t) n.world).2 ∧
      n'.con i = { n.con i with running := some (progSteps host j (reqProg user (n.con i).obj m t) n.world).1 } := by
  have e1 := Goes.step (by simp) (BStep.start (host := host) (user := user) n i k _ [] [] h.wire hr)
  have e2 := busy_calls (host := host) (user := user) (i := i) j (reqProg user (n.con i).obj m t)
    { n with con := upd n.con i { n.con i with running := some (reqProg user (n.con i).obj m t) } } (by dsimp only; rw [upd_same])
  refine ⟨_, e1.trans e2, rfl, ?_, rfl, ?_⟩
  · intro j hj
    dsimp only
    rw [upd_other _ _ hj, upd_other _ _ hj]
  · dsimp only
    rw [upd_same, upd_same]

/-- it makes `j` more calls of the operating system -/
theorem busy_more {host : Host ω H} {user : GoString} {i : Nat} (j : Nat) (n : Busy ω H) (p : Prog H (Ufs.Served H)) (hr : (n.con i).running = some p) :
    ∃ n', Goes host user n n' ∧ n'.cl = n.cl ∧ (∀ j, j ≠ i → n'.con j = n.con j) ∧ n'.world = (progSteps host j p n.world).2 ∧
      n'.con i = { n.con i with running := some (progSteps host j p n.world).1 } := by
  refine ⟨_, busy_calls j p n hr, rfl, ?_, rfl, ?_⟩
  · intro j hj
    dsimp only
    rw [upd_other _ _ hj]
  · dsimp only
    rw [upd_same]

end Ninep.Client
