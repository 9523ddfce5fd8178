import Verif.Client.Job
import Verif.Props.Site

set_option linter.unusedSimpArgs false
set_option linter.unusedVariables false

/-!
# Programs that use a client (C98)
-/

namespace Ninep.Client
open Spec Ufs
variable {ω H α : Type}

/-! ### what the theorems are about -/

/-- The program with the methods of a file server called on the spot: no client, no server, no bytes.  A method that
returns an error looks to the program like a call that does. -/
def Job.onSpot {σ : Type} (ns : NineServer σ) : Job α → σ → Option (σ × α)
  | .ret a, s => some (s, a)
  | .call m k, s =>
    match Spec.call ns m s with
    | .panic => none
    | .ok s' r => (k (.ret r none)).onSpot ns s'
    | .err s' e => (k (.ret (zeroR m) (some (.remote e)))).onSpot ns s'

/-- all calls that the program makes are in `P` -/
def Job.All (P : TMsg → Prop) : Job α → Prop
  | .ret _ => True
  | .call m k => P m ∧ ∀ r, (k r).All P

/-- the first call, if there is one, is `CallTversion` -/
def Job.Hello : Job α → Prop
  | .ret _ => True
  | .call m _ => ∃ p, m = .version p

/-- a program as it should be: it begins with `CallTversion`, and makes ordinary calls that can be put on the wire -/
structure Job.Proper (j : Job α) : Prop where
  hello : j.Hello
  calls : j.All fun m => Ordinary m ∧ m.Fits ∧ ∀ t, (m.packet t).length < 2 ^ 32

/-- the step of the clients, connections and server -/
def JobLabel.sites : JobLabel ω H → List (SiteLabel ω H)
  | .site l => [l]
  | .make i => [.link i (.step .call)]
  | .get _ => []

def JobLabel.Clean (l : JobLabel ω H) : Prop := ∀ x ∈ l.sites, x.Clean

/-- the calls of the operating system and what other processes do -/
def JobLabel.outside (l : JobLabel ω H) : List (BLabel ω H) := l.sites.flatMap SiteLabel.outside

/-! ### the program and its calls -/

/-- `j` is what is left of the program after the calls in the list, with what they returned -/
inductive Job.After (j0 : Job α) : List (TMsg × CallRes RMsg) → Job α → Prop
  | nil : After j0 [] j0
  | snoc {ys m k} (r : CallRes RMsg) : After j0 ys (.call m k) → After j0 (ys ++ [(m, r)]) (k r)

theorem Job.After.all {P : TMsg → Prop} {j0 j : Job α} {ys : List (TMsg × CallRes RMsg)} (h : j0.After ys j) (h0 : j0.All P) :
    j.All P ∧ ∀ y ∈ ys, P y.1 := by
  induction h with
  | nil => exact ⟨h0, by simp⟩
  | snoc r _ ih =>
    refine ⟨ih.1.2 r, ?_⟩
    intro y hy
    rcases List.mem_append.1 hy with hy | hy
    · exact ih.2 y hy
    · cases List.mem_singleton.1 hy; exact ih.1.1

theorem Job.After.first {j0 j : Job α} {ys : List (TMsg × CallRes RMsg)} (h : j0.After ys j) (h0 : j0.Hello) :
    (∀ y, ys.head? = some y → ∃ p, y.1 = .version p) ∧ (ys = [] → j.Hello) := by
  induction h with
  | nil => exact ⟨by simp, fun _ => h0⟩
  | @snoc ys m k r _ ih =>
    refine ⟨fun y hy => ?_, by simp⟩
    cases ys with
    | nil => cases hy; exact ih.2 rfl
    | cons a ys => exact ih.1 y hy

theorem Job.After.last {j0 j : Job α} {ys : List (TMsg × CallRes RMsg)} {m : TMsg} {r : CallRes RMsg} (h : j0.After (ys ++ [(m, r)]) j) :
    ∃ k, j0.After ys (.call m k) ∧ j = k r := by
  generalize hz : ys ++ [(m, r)] = zs at h
  cases h with
  | nil => simp at hz
  | @snoc ys' m' k r' h =>
    obtain ⟨rfl, h2⟩ := List.append_inj' hz rfl
    cases h2
    exact ⟨k, h, rfl⟩

theorem Job.After.none {j0 j : Job α} (h : j0.After [] j) : j = j0 := by
  generalize hz : ([] : List (TMsg × CallRes RMsg)) = zs at h
  cases h with
  | nil => rfl
  | snoc => simp at hz

/-! ### methods called on the spot -/

theorem path_of_run {α : Type} {p : Prog H α} {tr d : List (Ev H)} {w : Script H} {a : α} (h : p.run (scripted H) ⟨tr, d⟩ = some (w, a))
    (ht : w.todo = []) (hd : w.done.length ≤ d.length + tr.length) : Prog.Path p tr (.ret a) ∧ w = ⟨[], d ++ tr⟩ := by
  -- every call takes at most one event from the script and is recorded
  have count : ∀ (p : Prog H α) (v w : Script H) (a : α), p.run (scripted H) v = some (w, a) →
      v.done.length + v.todo.length ≤ w.done.length + w.todo.length ∧ v.done.length ≤ w.done.length := by
    intro p
    induction p with
    | ret x => intro v w a h; cases h; exact ⟨Nat.le_refl _, Nat.le_refl _⟩
    | panic => intro v w a h; cases h
    | call c k ih =>
      intro v w a h
      simp only [Prog.run, scripted_exec] at h
      have h1 := ih _ _ _ _ h
      have h2 : v.done.length + v.todo.length ≤ (Script.ans c v).1.done.length + (Script.ans c v).1.todo.length ∧
          v.done.length ≤ (Script.ans c v).1.done.length := by
        unfold Script.ans
        split
        · rename_i hv; simp [hv]
        · rename_i e rest hv
          split <;> simp [hv] <;> omega
      omega
  induction p generalizing tr d with
  | ret x =>
    cases h
    dsimp only at ht hd
    subst ht
    exact ⟨.nil, by simp⟩
  | panic => cases h
  | call c k ih =>
    simp only [Prog.run, scripted_exec] at h
    cases tr with
    | nil =>
      have := (count _ _ _ _ h).2
      simp [Script.ans] at this hd
      omega
    | cons e tr =>
      by_cases he : e.1 = c
      · obtain ⟨c', x⟩ := e
        dsimp only at he
        subst he
        rw [show Script.ans c' ⟨⟨c', x⟩ :: tr, d⟩ = (⟨tr, d ++ [⟨c', x⟩]⟩, x) from Script.ans_next ⟨c', x⟩ _ _] at h
        dsimp only at h
        obtain ⟨h1, h2⟩ := ih x h (by simp at hd ⊢; omega)
        exact ⟨.cons h1, by rw [h2]; simp⟩
      · have h1 := (count _ _ _ _ h).1
        simp [Script.ans, he, ht] at h1 hd
        omega

/-- the program together with the file server, as a program that calls the operating system -/
def Job.prog (user : GoString) : Job α → Obj H → Prog H (Obj H × α)
  | .ret a, o => .ret (o, a)
  | .call m k, o => (pcall user m o).bind fun x =>
    match x with
    | (o', .ok r) => (k (.ret r none)).prog user o'
    | (o', .error e) => (k (.ret (zeroR m) (some (.remote e)))).prog user o'

theorem onSpot_prog (host : Host ω H) (user : GoString) (j : Job α) (s : Ufs.State ω H) :
    j.onSpot (ufs host user) s = ((j.prog user s.obj).run host s.world).map fun x => (x.2.1.into x.1, x.2.2) := by
  induction j generalizing s with
  | ret a => rfl
  | call m k ih =>
    simp only [Job.onSpot, Job.prog, Prog.run_bind]
    rw [run_call]
    cases (pcall user m s.obj).run host s.world with
    | none => rfl
    | some x =>
      obtain ⟨w, o, r⟩ := x
      cases r with
      | ok r => exact ih _ _
      | error e => exact ih _ _

theorem path_none {A : Type} {p q : Prog H A} (h : p.Path [] q) : p = q := by
  generalize hz : ([] : List (Ev H)) = zs at h
  cases h with
  | nil => rfl
  | cons => cases hz

theorem path_split {A : Type} {p q : Prog H A} {tr : List (Ev H)} {e : Ev H} (h : p.Path (tr ++ [e]) q) :
    ∃ k, p.Path tr (.call e.1 k) ∧ q = k e.2 := by
  induction tr generalizing p with
  | nil =>
    cases h with
    | cons h => exact ⟨_, .nil, (path_none h).symm⟩
  | cons a tr ih =>
    cases h with
    | cons h =>
      obtain ⟨k, h1, h2⟩ := ih h
      exact ⟨k, .cons h1, h2⟩

theorem happened_run {host : Host ω H} {w w' : ω} {ls : List (BLabel ω H)} {i : Nat} (h : Happened host w ls w') (hl : ∀ l ∈ ls, ∃ e, l = .call i e)
    {A : Type} {p q : Prog H A} (hp : p.Path (hostCalls i ls) q) : p.run host w = q.run host w' := by
  induction h generalizing q with
  | nil => cases hp; rfl
  | @call ls w1 j x h ih =>
    obtain ⟨e, he⟩ := hl (.call j ⟨x, (host.exec x w1).2⟩) (by simp)
    cases he
    rw [hostCalls_append] at hp
    simp only [hostCalls, if_true] at hp
    obtain ⟨k, h1, rfl⟩ := path_split hp
    rw [ih (fun l hl' => hl l (by simp [hl'])) h1]
    rfl
  | other w2 _ => obtain ⟨e, he⟩ := hl (.other w2) (by simp); cases he
  | client j l _ => obtain ⟨e, he⟩ := hl (.client j l) (by simp); cases he
  | start j _ => obtain ⟨e, he⟩ := hl (.start j) (by simp); cases he
  | reply j _ => obtain ⟨e, he⟩ := hl (.reply j) (by simp); cases he

/-- a method that has been played with the answers `evs` makes exactly these calls -/
theorem played_path {user : GoString} {m : TMsg} {o : Obj H} {evs : List (Ev H)} :
    (∀ s' r, Spec.call (ufs (scripted H) user) m (o.into ⟨evs, []⟩) = .ok s' r → s'.world = ⟨[], evs⟩ →
      (pcall user m o).Path evs (.ret (s'.obj, .ok r))) ∧
    (∀ s' e, Spec.call (ufs (scripted H) user) m (o.into ⟨evs, []⟩) = .err s' e → s'.world = ⟨[], evs⟩ →
      (pcall user m o).Path evs (.ret (s'.obj, .error e))) := by
  rw [run_call]
  have e1 : ∀ w : Script H, (o.into w).obj = o := fun _ => rfl
  have e2 : ∀ w : Script H, (o.into w).world = w := fun _ => rfl
  rw [e1, e2]
  cases hr : (pcall user m o).run (scripted H) ⟨evs, []⟩ with
  | none => exact ⟨nofun, nofun⟩
  | some y =>
    obtain ⟨w, o', x⟩ := y
    have key : w = ⟨[], evs⟩ → (pcall user m o).Path evs (.ret (o', x)) := by
      intro hw
      exact (path_of_run hr (by rw [hw]) (by rw [hw]; simp)).1
    cases x with
    | ok r =>
      refine ⟨fun s' r' h hw => ?_, nofun⟩
      cases h
      exact key hw
    | error e =>
      refine ⟨nofun, fun s' r' h hw => ?_⟩
      cases h
      exact key hw

theorem path_bind {A B : Type} {p q : Prog H A} {tr : List (Ev H)} (h : p.Path tr q) (f : A → Prog H B) : (p.bind f).Path tr (q.bind f) := by
  induction h with
  | nil => exact .nil
  | cons _ ih => exact .cons ih

theorem path_trans {A : Type} {p q r : Prog H A} {t1 t2 : List (Ev H)} (h1 : p.Path t1 q) (h2 : q.Path t2 r) : p.Path (t1 ++ t2) r := by
  induction h1 with
  | nil => exact h2
  | cons _ ih => exact .cons (ih h2)

/-- the calls that come after -/
theorem path_rest {A : Type} {p q r : Prog H A} {t1 t2 : List (Ev H)} (h1 : p.Path t1 q) (h2 : p.Path (t1 ++ t2) r) : q.Path t2 r := by
  induction h1 with
  | nil => exact h2
  | cons _ ih =>
    cases h2 with
    | cons h2 => exact ih h2

/-- a program whose calls have been played one after the other -/
theorem prog_played {user : GoString} {o0 o : Obj H} {h : List (Deed H)} (hp : Played user o0 h o) {j0 j : Job α}
    (ha : j0.After (h.map fun e => (e.msg, asCall e.msg e.out)) j) : (j0.prog user o0).Path (h.map Deed.evs).flatten (j.prog user o) := by
  induction hp generalizing j with
  | nil => rw [ha.none]; exact .nil
  | @ok h o1 c m evs s' r _ hc hw ih =>
    rw [List.map_append] at ha
    obtain ⟨k, ha', rfl⟩ := ha.last
    rw [List.map_append, List.flatten_append]
    refine path_trans (ih ha') ?_
    have := path_bind (played_path.1 s' r hc hw) fun x =>
      match x with
      | (o', .ok r) => (k (.ret r none)).prog user o'
      | (o', .error e) => (k (.ret (zeroR m) (some (.remote e)))).prog user o'
    rw [show (List.map Deed.evs [(⟨c, m, evs, .ok r⟩ : Deed H)]).flatten = evs by simp]
    simp only [Job.prog]
    exact this
  | @err h o1 c m evs s' e _ hc hw ih =>
    rw [List.map_append] at ha
    obtain ⟨k, ha', rfl⟩ := ha.last
    rw [List.map_append, List.flatten_append]
    refine path_trans (ih ha') ?_
    have := path_bind (played_path.2 s' e hc hw) fun x =>
      match x with
      | (o', .ok r) => (k (.ret r none)).prog user o'
      | (o', .error e) => (k (.ret (zeroR m) (some (.remote e)))).prog user o'
    rw [show (List.map Deed.evs [(⟨c, m, evs, .error e⟩ : Deed H)]).flatten = evs by simp]
    simp only [Job.prog]
    exact this

/-- the calls of a program with answers from a script -/
theorem path_script {A : Type} {p q : Prog H A} {tr : List (Ev H)} (h : p.Path tr q) (rest done : List (Ev H)) :
    p.run (scripted H) ⟨tr ++ rest, done⟩ = q.run (scripted H) ⟨rest, done ++ tr⟩ := by
  induction h generalizing done with
  | nil => simp
  | @cons c k a tr q _ ih =>
    simp only [Prog.run, scripted_exec, List.cons_append]
    rw [show Script.ans c ⟨⟨c, a⟩ :: (tr ++ rest), done⟩ = (⟨tr ++ rest, done ++ [⟨c, a⟩]⟩, a) from Script.ans_next ⟨c, a⟩ _ _]
    dsimp only
    rw [ih]
    simp

/-! ### one step -/

/-- what a step does to the calls of a client -/
structure Moves (a b : State) : Prop where
  idle : ∀ c, b.phase c = .idle ↔ a.phase c = .idle
  done : ∀ c x, a.phase c = .done x → b.phase c = .done x
  msg : b.msg = a.msg
  written : b.written = a.written ∨ ∃ c t, a.sender = .stored c t ∧ b.written = a.written ++ [(c, a.buf c)]

theorem Moves.refl (a : State) : Moves a a := ⟨fun _ => Iff.rfl, fun _ _ h => h, rfl, .inl rfl⟩

theorem Moves.same {a b : State} (h1 : b.phase = a.phase) (h2 : b.msg = a.msg) (h3 : b.written = a.written) : Moves a b :=
  ⟨fun c => by rw [h1], fun c x => by rw [h1]; exact id, h2, .inl h3⟩

/-- a call is made -/
structure Makes (a b : State) (c : Nat) (m : TMsg) : Prop where
  idle : a.phase c = .idle
  phase : b.phase = upd a.phase c .sending
  msg : b.msg = upd a.msg c (some m)
  written : b.written = a.written

theorem moves_client {l : Label} {a b : State} (hi : ∀ c, a.sending.count c = (a.phase c).s) (hl : ClientSide l) (hs : Step true l a b) :
    (l ≠ .call → Moves a b) ∧ (l = .call → ∃ c m, Makes a b c m) := by
  cases hs with
  | call _ c m hp => exact ⟨fun h => absurd rfl h, fun _ => ⟨c, m, hp, rfl, rfl, rfl⟩⟩
  | reply => exact hl.elim
  | junk => exact hl.elim
  | close => exact hl.elim
  | enqueue _ x y c hx hlen =>
    refine ⟨fun _ => ⟨fun d => ?_, fun d z hd => ?_, rfl, .inl rfl⟩, nofun⟩
    · have hc : a.phase c = .sending := by
        have := hi c
        rw [hx] at this
        cases hp : a.phase c <;> simp [hp, Phase.s, List.count_append, List.count_cons] at this ⊢
      by_cases hd : d = c
      · subst hd; simp [upd, hc]
      · simp [upd, hd]
    · have hc : a.phase c = .sending := by
        have := hi c
        rw [hx] at this
        cases hp : a.phase c <;> simp [hp, Phase.s, List.count_append, List.count_cons] at this ⊢
      by_cases hdc : d = c
      · subst hdc; rw [hc] at hd; cases hd
      · simp [upd, hdc, hd]
  | deliver _ c t b hr hp =>
    refine ⟨fun _ => ⟨fun d => ?_, fun d z hd => ?_, rfl, .inl rfl⟩, nofun⟩
    · by_cases hd : d = c
      · subst hd; simp [upd, hp]
      · simp [upd, hd]
    · by_cases hdc : d = c
      · subst hdc; rw [hp] at hd; cases hd
      · simp [upd, hdc, hd]
  | write _ c t hsd => exact ⟨fun _ => ⟨fun _ => Iff.rfl, fun _ _ h => h, rfl, .inr ⟨c, t, hsd, rfl⟩⟩, nofun⟩
  | _ => exact ⟨fun _ => .same rfl rfl rfl, nofun⟩

theorem moves_answered (s : State) (b : Bytes) : Moves s (answered s b) := by
  unfold answered
  split <;> exact .same rfl rfl rfl

theorem moves_wired {σ : Type} {ns : NineServer σ} {l : WLabel} {s s' : Wired σ} (hi : ∀ c, s.cl.sending.count c = (s.cl.phase c).s)
    (hs : WStep ns l s s') : (l ≠ .step .call → Moves s.cl s'.cl) ∧ (l = .step .call → ∃ c m, Makes s.cl s'.cl c m) := by
  cases hs with
  | client _ l' cl' hr hcl hst hw hn =>
    obtain ⟨h1, h2⟩ := moves_client hi hcl hst
    exact ⟨fun h => h1 fun he => h (by rw [he]), fun h => h2 (by cases h; rfl)⟩
  | write _ c t hr hsd => exact ⟨fun _ => ⟨fun _ => Iff.rfl, fun _ _ h => h, rfl, .inr ⟨c, t, hsd, rfl⟩⟩, nofun⟩
  | writeFails _ c t x hr hsd hx => exact ⟨fun _ => ⟨fun _ => Iff.rfl, fun _ _ h => h, rfl, .inr ⟨c, t, hsd, rfl⟩⟩, nofun⟩
  | serve => exact ⟨fun _ => moves_answered _ _, nofun⟩
  | serveFails => exact ⟨fun _ => moves_answered _ _, nofun⟩
  | _ => exact ⟨fun _ => .same rfl rfl rfl, nofun⟩

theorem moves_site {host : Host ω H} {user : GoString} {l : SiteLabel ω H} {n n' : Site ω H}
    (hi : ∀ i c, (n.link i).w.cl.sending.count c = ((n.link i).w.cl.phase c).s) (hs : SiteStep host user l n n') (i : Nat) :
    (l ≠ .link i (.step .call) → Moves (n.link i).w.cl (n'.link i).w.cl) ∧
    (l = .link i (.step .call) → ∃ c m, Makes (n.link i).w.cl (n'.link i).w.cl c m) := by
  have set {j : Nat} {x : Link H} (h : j = i → Moves (n.link i).w.cl x.w.cl) : Moves (n.link i).w.cl ((n.setLink j x).link i).w.cl := by
    unfold Site.setLink
    by_cases hj : i = j
    · subst hj; dsimp only; rw [upd_same]; exact h rfl
    · dsimp only; rw [upd_other _ _ hj]; exact .refl _
  cases hs with
  | link _ j ns l w' hst hw hex =>
    obtain ⟨h1, h2⟩ := moves_wired (hi j) hst
    by_cases hj : j = i
    · subst hj
      unfold Site.setLink
      dsimp only
      rw [upd_same]
      exact ⟨fun h => h1 fun he => h (by rw [he]), fun h => h2 (by cases h; rfl)⟩
    · exact ⟨fun _ => set fun h => absurd h hj, fun h => by cases h; exact absurd rfl hj⟩
  | start _ j => exact ⟨fun _ => set fun h => by subst h; exact .refl _, nofun⟩
  | call _ j => exact ⟨fun _ => set fun h => by subst h; exact .refl _, nofun⟩
  | reply _ j => exact ⟨fun _ => set fun h => by subst h; exact moves_answered _ _, nofun⟩
  | replyFails _ j => exact ⟨fun _ => set fun h => by subst h; exact moves_answered _ _, nofun⟩
  | panic => exact ⟨fun _ => .refl _, nofun⟩
  | fatal => exact ⟨fun _ => .refl _, nofun⟩
  | other => exact ⟨fun _ => .refl _, nofun⟩

/-! ### the invariant -/

def JobAt.left : JobAt α → Job α
  | .next j => j
  | .waits _ m k => .call m k

/-- the call under way -/
def JobAt.pend : JobAt α → List Nat
  | .next _ => []
  | .waits c _ _ => [c]

/-- `xs`: the calls of the program that have returned, and what they returned -/
structure JobInv (j0 : Job α) (st : JobAt α) (s : State) (xs : List (Nat × TMsg × CallRes RMsg)) : Prop where
  after : j0.After (xs.map Prod.snd) st.left
  made : ∀ c, s.phase c ≠ .idle ↔ c ∈ xs.map Prod.fst ++ st.pend
  nodup : (xs.map Prod.fst ++ st.pend).Nodup
  done : ∀ x ∈ xs, s.msg x.1 = some x.2.1 ∧ ∃ b spare, s.phase x.1 = .done b ∧ x.2.2 = callT x.2.1 spare b
  waits : ∀ c m k, st = .waits c m k → s.msg c = some m
  first : xs.map Prod.fst <+: s.written.map Prod.fst
  last : s.written.map Prod.fst <+: xs.map Prod.fst ++ st.pend

theorem sender_unwritten {s : State} (hi : Inv s) {c : Nat} {t : Tag} (hs : s.sender = .stored c t) :
    s.phase c = .waiting ∧ c ∉ s.written.map Prod.fst := by
  have h1 := hi.wonce c
  have h2 := hi.once c
  have h3 := hi.calls c
  have h4 : (s.wire.map wireFl).map Prod.fst = (s.wire.map Prod.fst).map some := by simp [wireFl, Function.comp_def]
  have h5 : ((s.wire.map Prod.fst).map some).count (some c) = (s.wire.map Prod.fst).count c := by
    generalize s.wire.map Prod.fst = l
    induction l with
    | nil => rfl
    | cons a l ih => simp [List.count_cons, ih]
  simp only [allCalls, flights, hs, Sender.fl, Sender.calls, List.map_append, List.count_append, h4, h5, List.map_cons, List.map_nil,
    List.count_cons_self, List.count_nil] at h1 h2 h3
  rw [← List.count_eq_zero]
  cases hp : s.phase c <;> simp only [hp, Phase.w, Phase.d] at h2 h3 <;> first | omega | exact ⟨rfl, by omega⟩

theorem JobInv.moves {j0 : Job α} {st : JobAt α} {s s' : State} {xs : List (Nat × TMsg × CallRes RMsg)} (h : JobInv j0 st s xs)
    (hi : Inv { s with reader := fixReader s.reader, recv := fixRecv s.recv }) (hm : Moves s s') : JobInv j0 st s' xs := by
  refine ⟨h.after, fun c => ?_, h.nodup, fun x hx => ?_, fun c m k hc => ?_, ?_, ?_⟩
  · rw [← h.made c, ne_eq, ne_eq, hm.idle]
  · obtain ⟨h1, b, sp, h2, h3⟩ := h.done x hx
    exact ⟨by rw [hm.msg]; exact h1, b, sp, hm.done _ _ h2, h3⟩
  · rw [hm.msg]; exact h.waits c m k hc
  · rcases hm.written with hw | ⟨c, t, hs, hw⟩
    · rw [hw]; exact h.first
    · rw [hw, List.map_append]; exact h.first.trans (List.prefix_append _ _)
  · rcases hm.written with hw | ⟨c, t, hs, hw⟩
    · rw [hw]; exact h.last
    · obtain ⟨hp, hnw⟩ := sender_unwritten hi (c := c) (t := t) hs
      have hp : s.phase c = .waiting := hp
      have hnw : c ∉ s.written.map Prod.fst := hnw
      have hc := (h.made c).1 (by rw [hp]; simp)
      rcases List.mem_append.1 hc with hc | hc
      · exact absurd (h.first.subset hc) hnw
      · have hpend : st.pend = [c] := by
          cases st with
          | next => cases hc
          | waits d m k => cases List.mem_singleton.1 hc; rfl
        have hl := h.last
        rw [hpend] at hl ⊢
        rw [hw, List.map_append]
        obtain ⟨z, hz⟩ := h.first
        rw [← hz] at hl hnw ⊢
        rw [List.prefix_append_right_inj] at hl
        obtain ⟨u, hu⟩ := hl
        cases z with
        | nil => simp
        | cons y ys =>
          simp at hu
          simp [hu.1] at hnw

theorem JobInv.fit {j0 : Job α} {st : JobAt α} {s : State} {xs : List (Nat × TMsg × CallRes RMsg)} (h : JobInv j0 st s xs) (hf : Fresh s)
    (hp : j0.Proper) : CallsFit Ordinary s ∧
      ∀ c q m, s.written.head? = some (c, q) → s.msg c = some m → ∃ p, m = .version p := by
  obtain ⟨ha, hb⟩ := h.after.all hp.calls
  refine ⟨fun c m hm => ?_, fun c q m hq hm => ?_⟩
  · have hc := (h.made c).1 fun he => by rw [hf c he] at hm; cases hm
    rcases List.mem_append.1 hc with hc | hc
    · obtain ⟨x, hx, rfl⟩ := List.mem_map.1 hc
      have := (h.done x hx).1
      rw [hm] at this
      cases this
      exact hb x.2 (List.mem_map.2 ⟨x, hx, rfl⟩)
    · cases st with
      | next => cases hc
      | waits d m' k =>
        cases List.mem_singleton.1 hc
        have := h.waits _ _ _ rfl
        rw [hm] at this
        cases this
        exact ha.1
  · obtain ⟨h1, h2⟩ := h.after.first hp.hello
    obtain ⟨z, hz⟩ := h.last
    have hh : (xs.map Prod.fst ++ st.pend).head? = some c := by
      rw [← hz, List.head?_append, List.head?_map, hq]; rfl
    cases xs with
    | cons x xs =>
      cases hh
      have := (h.done x (by simp)).1
      rw [hm] at this
      cases this
      exact h1 x.2 rfl
    | nil =>
      cases st with
      | next => cases hh
      | waits d m' k =>
        cases hh
        have := h.waits _ _ _ rfl
        rw [hm] at this
        cases this
        exact h2 rfl

theorem makes_inv {j0 : Job α} {s s' : State} {xs : List (Nat × TMsg × CallRes RMsg)} {m m' : TMsg} {k : CallRes RMsg → Job α} {c c' : Nat}
    (h : JobInv j0 (.next (.call m k)) s xs) (hf : Fresh s) (hc : s.phase c = .idle) (hm : s'.msg c = some m) (hs : Makes s s' c' m') :
    JobInv j0 (.waits c m k) s' xs := by
  have hcc : c = c' := by
    apply Classical.byContradiction
    intro hne
    rw [hs.msg, upd_other _ _ hne, hf c hc] at hm
    cases hm
  subst hcc
  have hnx : c ∉ xs.map Prod.fst := by
    intro hx
    exact (h.made c).2 (List.mem_append_left _ hx) hc
  have hwr := hs.written
  refine ⟨h.after, fun d => ?_, ?_, fun x hx => ?_, fun d m1 k1 he => ?_, ?_, ?_⟩
  · rw [hs.phase]
    have := h.made d
    simp only [JobAt.pend, List.append_nil] at this
    by_cases hd : d = c
    · subst hd; simp [upd, JobAt.pend]
    · rw [upd_other _ _ hd, this]; simp [JobAt.pend, hd]
  · have := h.nodup
    simp only [JobAt.pend, List.append_nil] at this ⊢
    rw [List.nodup_append]
    refine ⟨this, by simp, ?_⟩
    intro a ha b hb
    cases List.mem_singleton.1 hb
    intro he
    subst he
    exact hnx ha
  · obtain ⟨h1, b, sp, h2, h3⟩ := h.done x hx
    have hxc : x.1 ≠ c := fun he => hnx (he ▸ List.mem_map.2 ⟨x, hx, rfl⟩)
    exact ⟨by rw [hs.msg, upd_other _ _ hxc]; exact h1, b, sp, by rw [hs.phase, upd_other _ _ hxc]; exact h2, h3⟩
  · cases he; exact hm
  · rw [hwr]; exact h.first
  · rw [hwr]
    exact h.last.trans (by simp [JobAt.pend])

theorem get_inv {j0 : Job α} {s : State} {xs : List (Nat × TMsg × CallRes RMsg)} {m : TMsg} {k : CallRes RMsg → Job α} {c : Nat} {b spare : Bytes}
    (h : JobInv j0 (.waits c m k) s xs) (hi : Inv { s with reader := fixReader s.reader, recv := fixRecv s.recv }) (hb : s.phase c = .done b) :
    JobInv j0 (.next (k (callT m spare b))) s (xs ++ [(c, m, callT m spare b)]) := by
  have e : (xs ++ [(c, m, callT m spare b)]).map Prod.fst = xs.map Prod.fst ++ [c] := by simp
  have hw : c ∈ s.written.map Prod.fst := by
    obtain ⟨q, hq⟩ := hi.done c b hb
    exact List.mem_map.2 ⟨_, (hi.replied _ hq).1, rfl⟩
  have hall : s.written.map Prod.fst = xs.map Prod.fst ++ [c] := by
    have hl := h.last
    have hn := h.nodup
    obtain ⟨z, hz⟩ := h.first
    rw [← hz] at hl hw ⊢
    simp only [JobAt.pend] at hl hn
    rw [List.prefix_append_right_inj] at hl
    obtain ⟨u, hu⟩ := hl
    cases z with
    | nil =>
      rw [List.append_nil] at hw
      rw [List.nodup_append] at hn
      exact absurd rfl (hn.2.2 c hw c (by simp))
    | cons y ys =>
      simp at hu
      simp [hu]
  refine ⟨?_, ?_, ?_, ?_, nofun, ?_, ?_⟩
  · rw [List.map_append]
    exact .snoc _ h.after
  · intro d
    rw [e]
    have := h.made d
    simpa [JobAt.pend] using this
  · rw [e]
    have := h.nodup
    simpa [JobAt.pend] using this
  · intro x hx
    rcases List.mem_append.1 hx with hx | hx
    · exact h.done x hx
    · cases List.mem_singleton.1 hx
      exact ⟨h.waits _ _ _ rfl, b, spare, hb, rfl⟩
  · rw [e, hall]
    exact List.prefix_refl _
  · rw [e, hall]
    exact List.prefix_append _ _

/-- a program at work does its calls in order, and the clients do what clients do -/
theorem job_exec {host : Host ω H} (hh : host.Short) {user : GoString} (hu : user.length < 2 ^ 13) {root : GoString} {w : ω}
    {jobs : Nat → Job α} (hj : ∀ i, (jobs i).Proper) {n : Shop ω H α} {ls : List (JobLabel ω H)}
    (he : JobExec host user (Shop.start root w jobs) ls n) (hl : ∀ l ∈ ls, l.Clean) :
    SiteExec host user (Site.start root w) (ls.flatMap JobLabel.sites) n.site ∧ n.site.Fine ∧ (∀ x ∈ ls.flatMap JobLabel.sites, x.Clean) ∧
      ∀ i, ∃ xs, JobInv (jobs i) (n.stage i) (n.site.link i).w.cl xs := by
  have hfr : ∀ i, Fresh ((Site.start (H := H) root w).link i).w.cl := fun _ _ _ => rfl
  have hclean : ∀ x ∈ ls.flatMap JobLabel.sites, x.Clean := by
    intro x hx
    obtain ⟨l, h1, h2⟩ := List.mem_flatMap.1 hx
    exact hl l h1 x h2
  suffices H : SiteExec host user (Site.start root w) (ls.flatMap JobLabel.sites) n.site ∧
      ∀ i, ∃ xs, JobInv (jobs i) (n.stage i) (n.site.link i).w.cl xs by
    refine ⟨H.1, ⟨fun i => ?_, fun i => ?_⟩, hclean, H.2⟩
    · obtain ⟨xs, hx⟩ := H.2 i
      exact (hx.fit ((later_exec hfr H.1).1 i) (hj i)).1
    · obtain ⟨xs, hx⟩ := H.2 i
      exact (hx.fit ((later_exec hfr H.1).1 i) (hj i)).2
  generalize hs0 : Shop.start (H := H) root w jobs = s0 at he
  induction he with
  | refl =>
    subst hs0
    exact ⟨.refl _, fun i => ⟨[], .nil, fun c => by simp [JobAt.pend, Shop.start]; rfl, by simp [JobAt.pend, Shop.start], by simp, nofun,
      by simp, List.prefix_refl _⟩⟩
  | @step n1 n2 ls1 l he hs ih =>
    subst hs0
    have hc1 : ∀ x ∈ ls1.flatMap JobLabel.sites, x.Clean := fun x hx => hclean x (by rw [List.flatMap_append]; exact List.mem_append_left _ hx)
    obtain ⟨ih1, ih2⟩ := ih (fun l hl' => hl l (by simp [hl'])) hc1
    have hfr1 := (later_exec hfr ih1).1
    have hfine : n1.site.Fine := by
      refine ⟨fun i => ?_, fun i => ?_⟩
      · obtain ⟨xs, hx⟩ := ih2 i
        exact (hx.fit (hfr1 i) (hj i)).1
      · obtain ⟨xs, hx⟩ := ih2 i
        exact (hx.fit (hfr1 i) (hj i)).2
    obtain ⟨bls, h, cur, -, hinv⟩ := site_reached hh hu ih1 hfine hc1
    have hi := hinv.inv.inv
    have hsend : ∀ i c, (n1.site.link i).w.cl.sending.count c = ((n1.site.link i).w.cl.phase c).s := fun i c => (hi i).sending c
    cases hs with
    | site _ l s' hne hst =>
      refine ⟨by simpa [List.flatMap_append, JobLabel.sites] using SiteExec.step ih1 hst, fun i => ?_⟩
      obtain ⟨xs, hx⟩ := ih2 i
      exact ⟨xs, hx.moves (hi i) ((moves_site hsend hst i).1 (hne i))⟩
    | make _ i c m k s' hstage hc hst hm =>
      refine ⟨by simpa [List.flatMap_append, JobLabel.sites] using SiteExec.step ih1 hst, fun j => ?_⟩
      obtain ⟨xs, hx⟩ := ih2 j
      by_cases hji : j = i
      · subst hji
        obtain ⟨c', m', hk⟩ := (moves_site hsend hst j).2 rfl
        dsimp only
        rw [upd_same]
        rw [hstage] at hx
        exact ⟨xs, makes_inv hx (hfr1 j) hc hm hk⟩
      · dsimp only
        rw [upd_other _ _ hji]
        exact ⟨xs, hx.moves (hi j) ((moves_site hsend hst j).1 (fun he => by cases he; exact hji rfl))⟩
    | get _ i c m k b spare hstage hr hb =>
      refine ⟨by simpa [List.flatMap_append, JobLabel.sites] using ih1, fun j => ?_⟩
      obtain ⟨xs, hx⟩ := ih2 j
      by_cases hji : j = i
      · subst hji
        dsimp only
        rw [upd_same]
        rw [hstage] at hx
        exact ⟨_, get_inv hx (hi j) hb⟩
      · dsimp only
        rw [upd_other _ _ hji]
        exact ⟨xs, hx⟩

/-! ### the result -/

theorem JobExec.trans {host : Host ω H} {user : GoString} {a b c : Shop ω H α} {l1 l2 : List (JobLabel ω H)}
    (h1 : JobExec host user a l1 b) (h2 : JobExec host user b l2 c) : JobExec host user a (l1 ++ l2) c := by
  induction h2 with
  | refl => simpa using h1
  | step _ hs ih => rw [← List.append_assoc]; exact ih.step hs

theorem pairs_eq {A B C : Type} {f : A → Nat} {g : A → C} {k : B → Nat} {h : B → C} : ∀ {l1 : List A} {l2 : List B}, l1.map f = l2.map k →
    (∀ a ∈ l1, ∀ b ∈ l2, f a = k b → g a = h b) → l1.map g = l2.map h
  | [], [], _, _ => rfl
  | [], _ :: _, h, _ => by simp at h
  | _ :: _, [], h, _ => by simp at h
  | a :: l1, b :: l2, h, hh => by
    simp only [List.map_cons, List.cons.injEq] at h ⊢
    exact ⟨hh a (by simp) b (by simp) h.1, pairs_eq h.2 fun a ha b hb => hh a (by simp [ha]) b (by simp [hb])⟩

theorem nodup_inj {A B : Type} {f : A → B} {l : List A} (h : (l.map f).Nodup) {a b : A} (ha : a ∈ l) (hb : b ∈ l) (hab : f a = f b) : a = b := by
  induction l with
  | nil => cases ha
  | cons x l ih =>
    rw [List.map_cons, List.nodup_cons] at h
    rcases List.mem_cons.1 ha with h1 | h1 <;> rcases List.mem_cons.1 hb with h2 | h2
    · rw [h1, h2]
    · exact (h.1 (List.mem_map.2 ⟨b, h2, by rw [← hab, h1]⟩)).elim
    · exact (h.1 (List.mem_map.2 ⟨a, h1, by rw [hab, h2]⟩)).elim
    · exact ih h.2 h1 h2

/-- when a program is between two calls, nothing is on the wire and no goroutine is at work for it -/
theorem next_idle {user root : GoString} {ls : List (BLabel ω H)} {n : Site ω H} {h : Nat → List (Deed H × Tag)} {cur : Nat → List (Ev H)}
    (hi : SiteInv user root ls n h cur) {i : Nat} {j0 j : Job α} {xs : List (Nat × TMsg × CallRes RMsg)}
    (hj : JobInv j0 (.next j) (n.link i).w.cl xs) :
    (n.link i).w.cl.written.map Prod.fst = xs.map Prod.fst ∧ (n.link i).w.cl.wire = [] ∧ (n.link i).running = none := by
  have hinv := hi.inv.inv i
  have hfifo : (n.link i).w.cl.written = (n.link i).w.cl.replied.map (fun r => (r.1, r.2.1)) ++ (n.link i).w.cl.wire := hi.inv.fifo i
  have hfm : (n.link i).w.cl.written.map Prod.fst = (n.link i).w.cl.replied.map Prod.fst ++ (n.link i).w.cl.wire.map Prod.fst := by
    rw [hfifo]; simp [Function.comp_def]
  have hwx : (n.link i).w.cl.written.map Prod.fst = xs.map Prod.fst := by
    have h1 := hj.first
    have h2 := hj.last
    simp only [JobAt.pend, List.append_nil] at h2
    exact (h2.eq_of_length_le h1.length_le)
  have hnd : (xs.map Prod.fst).Nodup := by have := hj.nodup; simpa [JobAt.pend] using this
  have hw : (n.link i).w.cl.wire = [] := by
    match hx : (n.link i).w.cl.wire with
    | [] => rfl
    | x :: y =>
      rw [hwx, hx] at hfm
      have hm : x.1 ∈ xs.map Prod.fst := by rw [hfm]; simp
      obtain ⟨z, hz, hzx⟩ := List.mem_map.1 hm
      obtain ⟨-, b, sp, hd, -⟩ := hj.done z hz
      obtain ⟨q, hq⟩ := hinv.done z.1 b hd
      have hq : (z.1, q, b) ∈ (n.link i).w.cl.replied := hq
      rw [hfm, List.nodup_append] at hnd
      exact absurd hzx (hnd.2.2 z.1 (List.mem_map.2 ⟨_, hq, rfl⟩) x.1 (by simp))
  refine ⟨hwx, hw, ?_⟩
  cases hr : (n.link i).running with
  | none => rfl
  | some p =>
    obtain ⟨c, q, y, sp, h1, -⟩ := hi.inv.now i p hr
    have h1 : (n.link i).w.cl.wire = (c, q) :: y := h1
    rw [hw] at h1
    cases h1

/-- when a program is between two calls, all that its server did was for the calls that have returned -/
theorem next_played {user root : GoString} {ls : List (BLabel ω H)} {n : Site ω H} {h : Nat → List (Deed H × Tag)} {cur : Nat → List (Ev H)}
    (hi : SiteInv user root ls n h cur) {i : Nat} {j0 j : Job α} {xs : List (Nat × TMsg × CallRes RMsg)}
    (hj : JobInv j0 (.next j) (n.link i).w.cl xs) :
    hostCalls i ls = (((h i).map Prod.fst).map Deed.evs).flatten ∧
      j0.After (((h i).map Prod.fst).map fun e => (e.msg, asCall e.msg e.out)) j := by
  have acc := hi.inv.account
  obtain ⟨hwx, hw, hrun⟩ := next_idle hi hj
  have hord : ((h i).map Prod.fst).map Deed.call = (n.link i).w.cl.replied.map Prod.fst := by
    have : (n.link i).w.cl.replied = (h i).map deedReply := hi.inv.replied i
    rw [this]; simp [deedReply, Function.comp_def]
  have hfm : (n.link i).w.cl.written.map Prod.fst = (n.link i).w.cl.replied.map Prod.fst ++ (n.link i).w.cl.wire.map Prod.fst := by
    rw [show (n.link i).w.cl.written = (n.link i).w.cl.replied.map (fun r => (r.1, r.2.1)) ++ (n.link i).w.cl.wire from hi.inv.fifo i]
    simp [Function.comp_def]
  refine ⟨(acc.calls i).2 hrun, ?_⟩
  have hids : ((h i).map Prod.fst).map Deed.call = xs.map Prod.fst := by
    rw [hord, ← hwx, hfm, hw]; simp
  have : ((h i).map Prod.fst).map (fun e => (e.msg, asCall e.msg e.out)) = xs.map Prod.snd := by
    refine pairs_eq hids fun e he x hx hex => ?_
    obtain ⟨hm, b, sp, hd, hr⟩ := hj.done x hx
    have h1 : (n.link i).w.cl.msg e.call = some e.msg := acc.msg i e he
    rw [hex, hm] at h1
    have hme := Option.some.inj h1
    obtain ⟨e', he', hec, hres⟩ := acc.results i x.1 b hd
    have : e' = e := by
      have hn := acc.once i
      exact nodup_inj hn he' he (hec.trans hex.symm)
    subst this
    exact Prod.ext hme.symm (by dsimp only; rw [hr, hme, hres])
  rw [this]
  exact hj.after

/-- where the program of a client is, and the calls of the operating system up to there -/
theorem job_path {host : Host ω H} (hh : host.Short) {user : GoString} (hu : user.length < 2 ^ 13) {root : GoString} {w : ω}
    {jobs : Nat → Job α} (hj : ∀ i, (jobs i).Proper) {n : Shop ω H α} {ls : List (JobLabel ω H)}
    (he : JobExec host user (Shop.start root w jobs) ls n) (hl : ∀ l ∈ ls, l.Clean) {i : Nat} {j : Job α} (hst : n.stage i = .next j) :
    ((jobs i).prog user (newObj root)).Path (hostCalls i (ls.flatMap JobLabel.outside)) (j.prog user (n.site.link i).w.srv.ns) := by
  obtain ⟨h1, h2, h3, h4⟩ := job_exec hh hu hj he hl
  have ho : ls.flatMap JobLabel.outside = (ls.flatMap JobLabel.sites).flatMap SiteLabel.outside := by
    simp only [List.flatMap_assoc]; rfl
  obtain ⟨bls, h, cur, -, g2, g3⟩ := site_exec hh hu (siteInv_start user root w) h1 h2 h3
  rw [List.nil_append] at g3
  obtain ⟨xs, hx⟩ := h4 i
  rw [hst] at hx
  obtain ⟨k1, k2⟩ := next_played g3 hx
  rw [ho, ← g2, outside_calls, k1]
  exact prog_played (g3.inv.played i) k2

theorem happened_step {host : Host ω H} {user : GoString} {l : JobLabel ω H} {n n' : Shop ω H α} (hs : JobStep host user l n n') {w : ω}
    {L : List (BLabel ω H)} (hh : Happened host w L n.site.world) : Happened host w (L ++ l.outside) n'.site.world := by
  have site {l : SiteLabel ω H} {s' : Site ω H} (h : SiteStep host user l n.site s') : Happened host w (L ++ l.outside) s'.world := by
    cases h with
    | call _ i x k => exact .call i x hh
    | other _ w2 => exact .other w2 hh
    | _ => simpa [SiteLabel.outside, Site.setLink] using hh
  cases hs with
  | site _ l s' hne hst => simpa [JobLabel.outside, JobLabel.sites] using site hst
  | make _ i c m k s' _ _ hst _ => simpa [JobLabel.outside, JobLabel.sites] using site hst
  | get => simpa [JobLabel.outside, JobLabel.sites] using hh

theorem happened_exec {host : Host ω H} {user : GoString} {ls : List (JobLabel ω H)} {n n' : Shop ω H α} (he : JobExec host user n ls n') :
    Happened host n.site.world (ls.flatMap JobLabel.outside) n'.site.world := by
  induction he with
  | refl => exact .nil
  | step _ hs ih =>
    rw [List.flatMap_append]
    simpa using happened_step hs ih

/-- **C98** A program that uses a client works as if it called the methods of the file server itself.  Any number of
clients with a program each; the packets are put together from bytes that arrive in any pieces, connections break at
any time, and the goroutines of the server and other processes run between any two calls of the operating system.
Whenever the program of client `i` is between two calls, it has come to where it comes when the methods of a file
server are called on the spot and the operating system gives the answers that it gave to the goroutine of client `i`;
these are exactly the calls of the operating system that are made; and the file server is in the same state.
With `j = .ret a` it says that the program returns the same value. -/
theorem C98_same {host : Host ω H} (hh : host.Short) {user : GoString} (hu : user.length < 2 ^ 13) (root : GoString) (w : ω)
    (jobs : Nat → Job α) (hj : ∀ i, (jobs i).Proper) (n : Shop ω H α) (ls : List (JobLabel ω H))
    (he : JobExec host user (Shop.start root w jobs) ls n) (hl : ∀ l ∈ ls, l.Clean) :
    Happened host w (ls.flatMap JobLabel.outside) n.site.world ∧
    ∀ i j, n.stage i = .next j → ∀ rest,
      (jobs i).onSpot (ufs (scripted H) user) ((newObj root).into ⟨hostCalls i (ls.flatMap JobLabel.outside) ++ rest, []⟩) =
        j.onSpot (ufs (scripted H) user) ((n.site.link i).w.srv.ns.into ⟨rest, hostCalls i (ls.flatMap JobLabel.outside)⟩) := by
  refine ⟨happened_exec he, fun i j hst rest => ?_⟩
  rw [onSpot_prog, onSpot_prog]
  have := path_script (job_path hh hu hj he hl hst) rest []
  exact congrArg _ this

/-! ### one program alone -/

/-- **C98** If for a while, between `n` and `n'`, nobody else calls the operating system or changes the world, the
program does in this time what it does when it is run on the file server and the operating system themselves: the rest
of the program has the same outcome from `n` and from `n'`. -/
theorem C98_between {host : Host ω H} (hh : host.Short) {user : GoString} (hu : user.length < 2 ^ 13) (root : GoString) (w : ω)
    (jobs : Nat → Job α) (hj : ∀ i, (jobs i).Proper) (n n' : Shop ω H α) (ls ls' : List (JobLabel ω H))
    (he : JobExec host user (Shop.start root w jobs) ls n) (he' : JobExec host user n ls' n') (hl : ∀ l ∈ ls ++ ls', l.Clean)
    (i : Nat) (j j' : Job α) (hst : n.stage i = .next j) (hst' : n'.stage i = .next j')
    (ho : ∀ l ∈ ls'.flatMap JobLabel.outside, ∃ e, l = .call i e) :
    j.onSpot (ufs host user) ((n.site.link i).w.srv.ns.into n.site.world) =
      j'.onSpot (ufs host user) ((n'.site.link i).w.srv.ns.into n'.site.world) := by
  have h1 := job_path hh hu hj he (fun l hl' => hl l (by simp [hl'])) hst
  have h2 := job_path hh hu hj (he.trans he') hl hst'
  rw [List.flatMap_append, hostCalls_append] at h2
  have h3 := happened_run (happened_exec he') ho (path_rest h1 h2)
  rw [onSpot_prog, onSpot_prog]
  exact congrArg _ h3

/-- **C98** If nobody else is active at all, the program returns what it returns when it is run on the file server and
the operating system themselves, and leaves the same file server and the same world. -/
theorem C98_alone {host : Host ω H} (hh : host.Short) {user : GoString} (hu : user.length < 2 ^ 13) (root : GoString) (w : ω)
    (jobs : Nat → Job α) (hj : ∀ i, (jobs i).Proper) (n : Shop ω H α) (ls : List (JobLabel ω H))
    (he : JobExec host user (Shop.start root w jobs) ls n) (hl : ∀ l ∈ ls, l.Clean) (i : Nat) (a : α) (ha : n.stage i = .next (.ret a))
    (ho : ∀ l ∈ ls.flatMap JobLabel.outside, ∃ e, l = .call i e) :
    (jobs i).onSpot (ufs host user) ((newObj root).into w) = some ((n.site.link i).w.srv.ns.into n.site.world, a) :=
  C98_between hh hu root w jobs hj _ n [] ls (.refl _) he hl i _ _ rfl ha ho

/-! ### progress -/

def JobLabel.Smooth (i : Nat) (l : JobLabel ω H) : Prop := ∀ x ∈ l.sites, x.Smooth i

/-- the connection of client `i` does not break, and nobody but its program uses the client -/
def JobLabel.Settling (i : Nat) : JobLabel ω H → Prop
  | .site l => l.Settling i
  | _ => True

/-- steps of the program of client `i`, of the client, of its connection and of its goroutine -/
def JobLabel.Own (i : Nat) : JobLabel ω H → Prop
  | .site l => l.Own i
  | .make j => j = i
  | .get j => j = i

theorem unused {s : State} {ys : List Nat} (h : ∀ c, s.phase c ≠ .idle ↔ c ∈ ys) : ∃ c, s.phase c = .idle := by
  have hb : ∃ b, ∀ y ∈ ys, y < b := by
    clear h
    induction ys with
    | nil => exact ⟨0, nofun⟩
    | cons a l ih =>
      obtain ⟨b, hb⟩ := ih
      refine ⟨a + b + 1, fun y hy => ?_⟩
      rcases List.mem_cons.1 hy with rfl | hy
      · omega
      · have := hb y hy; omega
  obtain ⟨b, hb⟩ := hb
  refine ⟨b, Classical.byContradiction fun hc => ?_⟩
  have := hb b ((h b).1 hc)
  omega

/-- **C98** There is no deadlock: when neither the program nor its client, connection or goroutine can make a step, the
program has returned. -/
theorem C98_stuck {host : Host ω H} (hh : host.Short) {user : GoString} (hu : user.length < 2 ^ 13) (root : GoString) (w : ω)
    (jobs : Nat → Job α) (hj : ∀ i, (jobs i).Proper) (n : Shop ω H α) (ls : List (JobLabel ω H))
    (he : JobExec host user (Shop.start root w jobs) ls n) (hl : ∀ l ∈ ls, l.Clean) (i : Nat)
    (hsm : ∀ l ∈ ls, l.Smooth i) (hx : n.site.exit = false) (ht : (n.site.link i).w.cl.taken.length < 65534)
    (hno : ∀ l n', l.Own i → ¬ JobStep host user l n n') : ∃ a, n.stage i = .next (.ret a) := by
  obtain ⟨h1, h2, h3, h4⟩ := job_exec hh hu hj he hl
  have hsm' : ∀ l ∈ ls.flatMap JobLabel.sites, l.Smooth i := by
    intro x hx
    obtain ⟨l, a1, a2⟩ := List.mem_flatMap.1 hx
    exact hsm l a1 x a2
  have hsound := sound_exec hh hu h1 h2 h3 i hsm'
  have hrun : (n.site.link i).w.Running := ⟨hsound.recv, hsound.open_.exited⟩
  obtain ⟨xs, hxs⟩ := h4 i
  cases hst : n.stage i with
  | next j =>
    cases j with
    | ret a => exact ⟨a, rfl⟩
    | call m k =>
      exfalso
      obtain ⟨c, hc⟩ := unused hxs.made
      refine hno (.make i) _ rfl (.make n i c m k _ hst hc
        (.link n.site i (idleNS _) (.step .call) _ (.client _ .call _ hrun trivial (.call _ c m hc) rfl rfl) (fun _ h => h)
          (fun _ => rfl)) ?_)
      simp [Site.setLink, upd]
  | waits c m k =>
    exfalso
    have hret := (C96_returns hh hu root w n.site _ h1 h2 h3 i).2 hsm' hx ht
    rw [hst] at hxs
    obtain ⟨b, hb⟩ := hret (fun l s' ho hs => hno (.site l) _ ho (.site n l s' (fun d he => by
      subst he
      exact ho.2) hs)) c ((hxs.made c).2 (by simp [JobAt.pend]))
    exact hno (.get i) _ rfl (.get n i c m k b [] hst hrun hb)

/-- what a step does to the program of client `i` -/
theorem stage_step {host : Host ω H} {user : GoString} {l : JobLabel ω H} {n n' : Shop ω H α} (hs : JobStep host user l n n') (i : Nat) :
    (n'.stage i = n.stage i ∧ l ≠ .make i ∧ l ≠ .get i) ∨
    (l = .make i ∧ ∃ c m k, n.stage i = .next (.call m k) ∧ n'.stage i = .waits c m k) ∨
    (l = .get i ∧ ∃ c m k r, n.stage i = .waits c m k ∧ n'.stage i = .next (k r)) := by
  cases hs with
  | site => exact .inl ⟨rfl, nofun, nofun⟩
  | make _ j c m k s' hst =>
    by_cases hj : j = i
    · subst hj
      exact .inr (.inl ⟨rfl, c, m, k, hst, by simp [upd]⟩)
    · exact .inl ⟨upd_other _ _ (Ne.symm hj), by simpa using hj, nofun⟩
  | get _ j c m k b sp hst =>
    by_cases hj : j = i
    · subst hj
      exact .inr (.inr ⟨rfl, c, m, k, _, hst, by simp [upd]; rfl⟩)
    · exact .inl ⟨upd_other _ _ (Ne.symm hj), nofun, by simpa using hj⟩

/-- **C98** A program makes only finitely many steps, together with its client, connection and goroutine, however
long the others go on. -/
theorem C98_ends {host : Host ω H} (hh : host.Short) {user : GoString} (hu : user.length < 2 ^ 13) (root : GoString) (w : ω)
    (jobs : Nat → Job α) (hj : ∀ i, (jobs i).Proper) (n : Shop ω H α) (ls : List (JobLabel ω H))
    (he : JobExec host user (Shop.start root w jobs) ls n) (hl : ∀ l ∈ ls, l.Clean) (i : Nat)
    (f : Nat → Shop ω H α) (lb : Nat → JobLabel ω H) (h0 : f 0 = n)
    (hs : ∀ k, (lb k).Clean ∧ (lb k).Settling i ∧ JobStep host user (lb k) (f k) (f (k + 1))) : ∃ k0, ∀ k, k0 ≤ k → ¬ (lb k).Own i := by
  -- the execution from some point on
  have reach : ∀ d, ∃ ls', JobExec host user (Shop.start root w jobs) ls' (f d) ∧ ∀ l ∈ ls', l.Clean := by
    intro d
    induction d with
    | zero => exact ⟨ls, h0 ▸ he, hl⟩
    | succ d ih =>
      obtain ⟨ls', h1, h2⟩ := ih
      refine ⟨_, .step h1 (hs d).2.2, fun l hl' => ?_⟩
      rcases List.mem_append.1 hl' with h | h
      · exact h2 l h
      · cases List.mem_singleton.1 h; exact (hs d).1
  -- when the program stays where it is
  have quiet : ∀ d, (∀ k, d ≤ k → lb k ≠ .make i ∧ lb k ≠ .get i) → ∃ k0, ∀ k, k0 ≤ k → ¬ (lb k).Own i := by
    intro d hd
    obtain ⟨ls', h1, h2⟩ := reach d
    obtain ⟨g1, g2, g3, -⟩ := job_exec hh hu hj h1 h2
    let sl : JobLabel ω H → Shop ω H α → SiteLabel ω H := fun l n =>
      match l with
      | .site l => l
      | .make j => .link j (.step .call)
      | .get _ => .other n.site.world
    have key : ∀ k, (f (d + k)).site.Fine ∧ (sl (lb (d + k)) (f (d + k))).Clean ∧ (sl (lb (d + k)) (f (d + k))).Settling i ∧
        SiteStep host user (sl (lb (d + k)) (f (d + k))) (f (d + k)).site (f (d + (k + 1))).site := by
      intro k
      obtain ⟨ls2, h3, h4⟩ := reach (d + k)
      obtain ⟨-, g4, -, -⟩ := job_exec hh hu hj h3 h4
      obtain ⟨a1, a2, a3⟩ := hs (d + k)
      obtain ⟨b1, b2⟩ := hd (d + k) (by omega)
      refine ⟨g4, ?_⟩
      rw [← Nat.add_assoc]
      revert a1 a2 a3 b1 b2
      generalize lb (d + k) = l
      generalize f (d + k) = s
      generalize f (d + k + 1) = s'
      intro a1 a2 a3 b1 b2
      cases a3 with
      | site _ l s' hne hst => exact ⟨a1 l (by simp [JobLabel.sites]), a2, hst⟩
      | make _ j c m q s' hst hc hss hm =>
        refine ⟨a1 (.link j (.step .call)) (by simp [JobLabel.sites]), ?_, hss⟩
        intro hji
        exact absurd (by rw [hji]) b1
      | get _ j c m q b sp hst hr hb => exact ⟨trivial, trivial, .other _ _⟩
    obtain ⟨k0, hk0⟩ := (C96_returns hh hu root w (f d).site _ g1 g2 g3 i).1 (fun k => (f (d + k)).site) (fun k => sl (lb (d + k)) (f (d + k))) rfl key
    refine ⟨d + k0, fun k hk ho => ?_⟩
    obtain ⟨x, rfl⟩ : ∃ x, k = d + x := ⟨k - d, by omega⟩
    refine hk0 x (by omega) ?_
    obtain ⟨b1, b2⟩ := hd (d + x) (by omega)
    revert ho b1 b2
    generalize lb (d + x) = l
    intro ho b1 b2
    cases l with
    | site l => exact ho
    | make j => cases (show j = i from ho); exact absurd rfl b1
    | get j => cases (show j = i from ho); exact absurd rfl b2
  -- the program stays where it is, or makes a step
  have next : ∀ d, (∃ k0, ∀ k, k0 ≤ k → ¬ (lb k).Own i) ∨ ∃ x, (f x).stage i = (f d).stage i ∧
      ((∃ c m k, (f x).stage i = .next (.call m k) ∧ (f (x + 1)).stage i = .waits c m k) ∨
       (∃ c m k r, (f x).stage i = .waits c m k ∧ (f (x + 1)).stage i = .next (k r))) := by
    intro d
    by_cases hq : ∀ k, d ≤ k → lb k ≠ .make i ∧ lb k ≠ .get i
    · exact .inl (quiet d hq)
    · have : ∃ x, d ≤ x ∧ ¬ (lb x ≠ .make i ∧ lb x ≠ .get i) := Classical.byContradiction fun hc =>
        hq fun k hk => Classical.byContradiction fun hn => hc ⟨k, hk, hn⟩
      obtain ⟨x, h1, h2, h3⟩ := first_such this
      have same : ∀ e, d + e ≤ x → (f (d + e)).stage i = (f d).stage i := by
        intro e
        induction e with
        | zero => exact fun _ => rfl
        | succ e ih =>
          intro hex
          have hn := Classical.not_not.1 (h3 (d + e) (by omega) (by omega))
          rcases stage_step (hs (d + e)).2.2 i with h | ⟨h, -⟩ | ⟨h, -⟩
          · exact h.1.trans (ih (by omega))
          · exact absurd h hn.1
          · exact absurd h hn.2
      refine .inr ⟨x, by have := same (x - d) (by omega); rwa [Nat.add_sub_cancel' h1] at this, ?_⟩
      rcases stage_step (hs x).2.2 i with ⟨-, h⟩ | ⟨-, h⟩ | ⟨-, h⟩
      · exact absurd h h2
      · exact .inl h
      · exact .inr h
  have main : ∀ (j : Job α), (∀ d, (f d).stage i = .next j → ∃ k0, ∀ k, k0 ≤ k → ¬ (lb k).Own i) := by
    intro j
    induction j with
    | ret a =>
      intro d hd
      rcases next d with h | ⟨x, h1, ⟨c, m, k, h2, -⟩ | ⟨c, m, k, r, h2, -⟩⟩
      · exact h
      · rw [h1, hd] at h2; cases h2
      · rw [h1, hd] at h2; cases h2
    | call m k ih =>
      have wait : ∀ c d, (f d).stage i = .waits c m k → ∃ k0, ∀ k, k0 ≤ k → ¬ (lb k).Own i := by
        intro c d hd
        rcases next d with h | ⟨x, h1, ⟨c, m, k, h2, -⟩ | ⟨c, m, k, r, h2, h3⟩⟩
        · exact h
        · rw [h1, hd] at h2; cases h2
        · rw [h1, hd] at h2; cases h2; exact ih _ _ h3
      intro d hd
      rcases next d with h | ⟨x, h1, ⟨c, m, k, h2, h3⟩ | ⟨c, m, k, r, h2, -⟩⟩
      · exact h
      · rw [h1, hd] at h2; cases h2; exact wait _ _ h3
      · rw [h1, hd] at h2; cases h2
  cases hst : (f 0).stage i with
  | next j => exact main j 0 hst
  | waits c m k =>
    rcases next 0 with h | ⟨x, h1, ⟨c, m, k, h2, -⟩ | ⟨c, m, k, r, h2, h3⟩⟩
    · exact h
    · rw [h1, hst] at h2; cases h2
    · exact main _ _ h3

theorem JobLabel.Own.fine {i : Nat} {l : JobLabel ω H} (h : l.Own i) :
    l.Clean ∧ l.Smooth i ∧ l.Settling i ∧ ∀ x ∈ l.outside, ∃ e, x = .call i e := by
  cases l with
  | site l =>
    have one {P : SiteLabel ω H → Prop} (hp : P l) : ∀ x ∈ (JobLabel.site l).sites, P x := by
      intro x hx
      cases List.mem_singleton.1 hx
      exact hp
    cases l with
    | link j l =>
      obtain ⟨h1, h2⟩ := h
      refine ⟨one ?_, one fun _ => ?_, fun _ => h2, by simp [JobLabel.outside, JobLabel.sites, SiteLabel.outside]⟩
      · cases l <;> first | exact h2.elim | exact ⟨nofun, nofun⟩
      · cases l <;> first | exact h2.elim | trivial
    | start j => exact ⟨one trivial, one trivial, trivial, by simp [JobLabel.outside, JobLabel.sites, SiteLabel.outside]⟩
    | call j e =>
      cases (show j = i from h)
      exact ⟨one trivial, one trivial, trivial, by simp [JobLabel.outside, JobLabel.sites, SiteLabel.outside]⟩
    | reply j wr => exact ⟨one trivial, one fun _ => h.2, fun _ => h.2, by simp [JobLabel.outside, JobLabel.sites, SiteLabel.outside]⟩
    | panic => exact h.elim
    | fatal => exact h.elim
    | other => exact h.elim
  | make j =>
    refine ⟨?_, ?_, trivial, by simp [JobLabel.outside, JobLabel.sites, SiteLabel.outside]⟩
    · intro x hx
      cases List.mem_singleton.1 hx
      exact ⟨nofun, nofun⟩
    · intro x hx
      cases List.mem_singleton.1 hx
      exact fun _ => trivial
  | get j => exact ⟨nofun, nofun, trivial, by simp [JobLabel.outside, JobLabel.sites]⟩

theorem wired_taken {σ : Type} {ns : NineServer σ} {l : WLabel} {s s' : Wired σ} (hl : l ≠ .step .getTag) (hs : WStep ns l s s') :
    s'.cl.taken = s.cl.taken := by
  have ans (s : State) (b : Bytes) : (answered s b).taken = s.taken := by unfold answered; split <;> rfl
  cases hs with
  | client _ l' cl' hr hcl hst hw hn => cases hst <;> first | rfl | exact absurd rfl hl
  | serve => exact ans _ _
  | serveFails => exact ans _ _
  | _ => rfl

theorem own_keeps {host : Host ω H} {user : GoString} {l : JobLabel ω H} {n n' : Shop ω H α} {i : Nat} (hl : l.Own i)
    (hs : JobStep host user l n n') : n'.site.exit = n.site.exit ∧ (n'.site.link i).w.cl.taken = (n.site.link i).w.cl.taken := by
  have ans (s : State) (b : Bytes) : (answered s b).taken = s.taken := by unfold answered; split <;> rfl
  have set {n : Site ω H} {j : Nat} {x : Link H} (h : j = i → x.w.cl.taken = (n.link i).w.cl.taken) :
      ((n.setLink j x).link i).w.cl.taken = (n.link i).w.cl.taken := by
    unfold Site.setLink
    by_cases hj : i = j
    · subst hj; dsimp only; rw [upd_same]; exact h rfl
    · dsimp only; rw [upd_other _ _ hj]
  cases hs with
  | site _ l s' hne hst =>
    cases hst with
    | link _ j ns l w' hst hw hex =>
      refine ⟨rfl, set fun hj => ?_⟩
      subst hj
      exact wired_taken (fun he => by subst he; exact hl.2) hst
    | start => exact ⟨rfl, set fun hj => by subst hj; rfl⟩
    | call => exact ⟨rfl, set fun hj => by subst hj; rfl⟩
    | reply => exact ⟨rfl, set fun hj => by subst hj; exact ans _ _⟩
    | replyFails => exact absurd hl.2 (by simp)
    | panic => exact hl.elim
    | fatal => exact hl.elim
    | other => exact hl.elim
  | make _ j c m k s' hst hc hss hm =>
    cases hss with
    | link _ j ns l w' hst hw hex =>
      refine ⟨rfl, set fun hj => ?_⟩
      subst hj
      exact wired_taken (l := .step .call) (by simp) hst
  | get => exact ⟨rfl, rfl⟩

/-- **C98** A program can always come to its end: from whatever there is, as long as the connection has not been
broken, the process has not ended and there are tags left, the steps of the program, of its client, of its connection
and of its goroutine are enough for it to return, without any step of others. -/
theorem C98_completes {host : Host ω H} (hh : host.Short) {user : GoString} (hu : user.length < 2 ^ 13) (root : GoString) (w : ω)
    (jobs : Nat → Job α) (hj : ∀ i, (jobs i).Proper) (n : Shop ω H α) (ls : List (JobLabel ω H))
    (he : JobExec host user (Shop.start root w jobs) ls n) (hl : ∀ l ∈ ls, l.Clean) (i : Nat)
    (hsm : ∀ l ∈ ls, l.Smooth i) (hx : n.site.exit = false) (ht : (n.site.link i).w.cl.taken.length < 65534) :
    ∃ ls' n' a, JobExec host user n ls' n' ∧ (∀ l ∈ ls', l.Own i) ∧ n'.stage i = .next (.ret a) := by
  classical
  let g : Shop ω H α → JobLabel ω H × Shop ω H α := fun n =>
    if h : ∃ x : JobLabel ω H × Shop ω H α, x.1.Own i ∧ JobStep host user x.1 n x.2 then h.choose else (.site (.other n.site.world), n)
  have hg : ∀ n, (∃ l n', l.Own i ∧ JobStep host user l n n') → (g n).1.Own i := by
    intro n ⟨l, n', h1, h2⟩
    have h : ∃ x : JobLabel ω H × Shop ω H α, x.1.Own i ∧ JobStep host user x.1 n x.2 := ⟨(l, n'), h1, h2⟩
    show (if h : ∃ x : JobLabel ω H × Shop ω H α, x.1.Own i ∧ JobStep host user x.1 n x.2 then h.choose else (.site (.other n.site.world), n)).1.Own i
    rw [dif_pos h]
    exact h.choose_spec.1
  have hgs : ∀ n, JobStep host user (g n).1 n (g n).2 ∧ (g n).1.Clean ∧ (g n).1.Settling i := by
    intro n
    by_cases h : ∃ x : JobLabel ω H × Shop ω H α, x.1.Own i ∧ JobStep host user x.1 n x.2
    · have : g n = h.choose := dif_pos h
      rw [this]
      exact ⟨h.choose_spec.2, h.choose_spec.1.fine.1, h.choose_spec.1.fine.2.2.1⟩
    · have : g n = (.site (.other n.site.world), n) := dif_neg h
      rw [this]
      refine ⟨.site n (.other n.site.world) n.site nofun (.other n.site n.site.world), ?_, trivial⟩
      intro x hx
      cases List.mem_singleton.1 hx
      trivial
  let f : Nat → Shop ω H α := fun k => Nat.rec n (fun _ m => (g m).2) k
  have hf : ∀ k, f (k + 1) = (g (f k)).2 := fun _ => rfl
  obtain ⟨k0, hk0⟩ := C98_ends hh hu root w jobs hj n ls he hl i f (fun k => (g (f k)).1) rfl
    (fun k => ⟨(hgs (f k)).2.1, (hgs (f k)).2.2, (hgs (f k)).1⟩)
  obtain ⟨j, -, h1, h2⟩ := first_such (p := fun k => ¬ (g (f k)).1.Own i) (k := 0) ⟨k0, Nat.zero_le _, hk0 k0 (Nat.le_refl _)⟩
  have key : ∀ d, d ≤ j → ∃ ls', JobExec host user n ls' (f d) ∧ (∀ l ∈ ls', l.Own i) ∧ (f d).site.exit = false ∧
      ((f d).site.link i).w.cl.taken.length < 65534 := by
    intro d
    induction d with
    | zero => exact fun _ => ⟨[], .refl _, nofun, hx, ht⟩
    | succ d ih =>
      intro hd
      obtain ⟨ls', a1, a2, a3, a4⟩ := ih (by omega)
      have hown : (g (f d)).1.Own i := Classical.not_not.1 (h2 d (Nat.zero_le _) (by omega))
      obtain ⟨b1, b2⟩ := own_keeps hown (hgs (f d)).1
      refine ⟨ls' ++ [(g (f d)).1], .step a1 (hgs (f d)).1, ?_, by rw [hf, b1]; exact a3, by rw [hf, b2]; exact a4⟩
      intro l hl'
      rcases List.mem_append.1 hl' with h | h
      · exact a2 l h
      · cases List.mem_singleton.1 h; exact hown
  obtain ⟨ls', a1, a2, a3, a4⟩ := key j (Nat.le_refl _)
  have hboth {P : JobLabel ω H → Prop} (p1 : ∀ l ∈ ls, P l) (p2 : ∀ l : JobLabel ω H, l.Own i → P l) : ∀ l ∈ ls ++ ls', P l := by
    intro l hl'
    rcases List.mem_append.1 hl' with h | h
    · exact p1 l h
    · exact p2 l (a2 l h)
  obtain ⟨a, ha⟩ := C98_stuck hh hu root w jobs hj (f j) _ (he.trans a1) (hboth hl fun l h => h.fine.1) i (hboth hsm fun l h => h.fine.2.1) a3 a4
    (fun l n' ho hs => h1 (hg (f j) ⟨l, n', ho, hs⟩))
  exact ⟨ls', f j, a, a1, a2, ha⟩

/-! ### an example -/

/-- attach to a directory and read the file `f` in it -/
def readF : Job (Option Bytes) :=
  .call (.version ⟨8192, lit "9P2000"⟩) fun _ =>
  .call (.attach ⟨0, NOFID, [], []⟩) fun _ =>
  .call (.walk ⟨0, 1, [lit "f"]⟩) fun _ =>
  .call (.open_ ⟨1, 0⟩) fun _ =>
  .call (.read ⟨1, 0, 100⟩) fun r =>
  .ret (match r with
    | .ret (.read p) none => some p.Data
    | _ => none)

theorem short_packet {m : TMsg} (h : m.fields.length < 65536) : ∀ t, (m.packet t).length < 2 ^ 32 := by
  intro t
  simp [TMsg.packet, Spec.packet, TMsg.body]
  omega

theorem readF_proper : readF.Proper := by
  have e1 : (lit "9P2000").length = 6 := by decide
  have e2 : (lit "f").length = 1 := by decide
  refine ⟨⟨_, rfl⟩, ⟨?_, ?_, short_packet (by decide)⟩, fun _ => ⟨⟨trivial, ?_, short_packet (by decide)⟩, fun _ => ⟨⟨?_, ?_, short_packet (by decide)⟩,
    fun _ => ⟨⟨trivial, trivial, short_packet (by decide)⟩, fun _ => ⟨⟨?_, trivial, short_packet (by decide)⟩, fun _ => trivial⟩⟩⟩⟩⟩ <;>
    simp [Ordinary, TMsg.Fits, e1, e2] <;> decide

/-- A client whose program is `readF` reads four bytes from the file. -/
theorem job_instance (spare : Nat → Job (Option Bytes)) (hs : ∀ i, (spare i).Proper) :
    ∃ (n : Shop Mem.World Nat (Option Bytes)) (ls : List (JobLabel Mem.World Nat)),
      JobExec Mem.shortHost (lit "harvey") (Shop.start [47, 120] Mem.world0 (upd spare 0 readF)) ls n ∧ (∀ l ∈ ls, l.Own 0) ∧
        n.stage 0 = .next (.ret (some [1, 2, 3, 4])) := by
  have hj : ∀ i, (upd spare 0 readF i).Proper := upd_all (fun (j : Job (Option Bytes)) _ => j.Proper) readF_proper fun i _ => hs i
  have hu : (lit "harvey").length < 2 ^ 13 := by decide
  obtain ⟨ls, n, a, h1, h2, h3⟩ := C98_completes Mem.shortHost_short hu [47, 120] Mem.world0 _ hj _ [] (.refl _) nofun 0 nofun rfl
    (show (0 : Nat) < 65534 by decide)
  refine ⟨n, ls, h1, h2, ?_⟩
  have h4 := C98_alone Mem.shortHost_short hu [47, 120] Mem.world0 _ hj n ls h1 (fun l hl => (h2 l hl).fine.1) 0 a h3 (by
    intro x hx
    obtain ⟨l, a1, a2⟩ := List.mem_flatMap.1 hx
    exact (h2 l a1).fine.2.2.2 x a2)
  rw [upd_same] at h4
  have h5 : (readF.onSpot (ufs Mem.shortHost (lit "harvey")) ((newObj [47, 120]).into Mem.world0)).map Prod.snd = some (some [1, 2, 3, 4]) := by
    decide +kernel
  rw [h4] at h5
  rw [h3]
  cases h5
  rfl

end Ninep.Client
