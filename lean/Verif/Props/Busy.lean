import Verif.Client.Busy
import Verif.Lemmas.Tame
import Verif.Lemmas.BusyRun
import Verif.Props.Many

set_option linter.unusedSimpArgs false
set_option linter.unusedVariables false

/-!
# Clients whose requests overlap (C93)

Every call of every client returns the outcome of its method run against the answers that the operating system gave
to the calls made for it.
-/

namespace Ninep.Client
open Spec Ufs
variable {ω H : Type}

/-- the calls of the operating system made for client `i`, with their answers -/
def hostCalls (i : Nat) : List (BLabel ω H) → List (Ev H)
  | [] => []
  | .call j e :: ls => if j = i then e :: hostCalls i ls else hostCalls i ls
  | _ :: ls => hostCalls i ls

/-- a call that was answered: its number, its request, the calls of the operating system made for it, the outcome -/
structure Deed (H : Type) where
  call : Nat
  msg : TMsg
  evs : List (Ev H)
  out : Except GoString RMsg

/-- Methods of a file server called directly, one after the other.  The host gives the answers `evs`, and `evs` are
exactly the calls that the method makes. -/
inductive Played (user : GoString) (o : Obj H) : List (Deed H) → Obj H → Prop
  | nil : Played user o [] o
  | ok {h o1} (c : Nat) (m : TMsg) (evs : List (Ev H)) {s' r} : Played user o h o1 →
      Spec.call (ufs (scripted H) user) m (o1.into ⟨evs, []⟩) = .ok s' r → s'.world = ⟨[], evs⟩ →
      Played user o (h ++ [⟨c, m, evs, .ok r⟩]) s'.obj
  | err {h o1} (c : Nat) (m : TMsg) (evs : List (Ev H)) {s' e} : Played user o h o1 →
      Spec.call (ufs (scripted H) user) m (o1.into ⟨evs, []⟩) = .err s' e → s'.world = ⟨[], evs⟩ →
      Played user o (h ++ [⟨c, m, evs, .error e⟩]) s'.obj

/-- what the operating system did: the calls in the order of `ls`, with the answers in `ls`, lead from one world to the other -/
inductive Happened (host : Host ω H) (w : ω) : List (BLabel ω H) → ω → Prop
  | nil : Happened host w [] w
  | call {ls w1} (i : Nat) (x : HCall H) : Happened host w ls w1 →
      Happened host w (ls ++ [.call i ⟨x, (host.exec x w1).2⟩]) (host.exec x w1).1
  | other {ls w1} (w2 : ω) : Happened host w ls w1 → Happened host w (ls ++ [.other w2]) w2
  | client {ls w1} (i : Nat) (l : Label) : Happened host w ls w1 → Happened host w (ls ++ [.client i l]) w1
  | start {ls w1} (i : Nat) : Happened host w ls w1 → Happened host w (ls ++ [.start i]) w1
  | reply {ls w1} (i : Nat) : Happened host w ls w1 → Happened host w (ls ++ [.reply i]) w1

/-- `h i` tells what has become of the calls of client `i`, in an execution with the steps `ls` that led to `n` -/
structure Account (user root : GoString) (ls : List (BLabel ω H)) (n : Busy ω H) (h : Nat → List (Deed H)) : Prop where
  /-- calling the methods directly gives the same outcomes and the same file server -/
  played : ∀ i, Played user (newObj root) (h i) (n.con i).obj
  /-- the answers of the operating system are those it gave, in this order; what is left over belongs to the request
  being worked on -/
  calls : ∀ i, ((h i).map Deed.evs).flatten <+: hostCalls i ls ∧
    ((n.con i).running = none → hostCalls i ls = ((h i).map Deed.evs).flatten)
  /-- the requests are dealt with in the order in which they were written, each once -/
  order : ∀ i, (h i).map Deed.call <+: (n.cl i).written.map Prod.fst
  once : ∀ i, ((h i).map Deed.call).Nodup
  msg : ∀ i, ∀ e ∈ h i, (n.cl i).msg e.call = some e.msg
  /-- a call that has returned got its outcome -/
  results : ∀ i c b, (n.cl i).phase c = .done b → ∃ e ∈ h i, e.call = c ∧ ∀ spare, callT e.msg spare b = asCall e.msg e.out

/-! ### the invariant -/

def deedReply (a : Deed H × Tag) : Nat × Bytes × Bytes := (a.1.call, a.1.msg.packet a.2, asPacket a.2 a.1.out)

structure BInv (user : GoString) (o0 : Obj H) (ls : List (BLabel ω H)) (n : Busy ω H) (h : Nat → List (Deed H × Tag))
    (cur : Nat → List (Ev H)) : Prop where
  inv : ∀ i, Inv (n.cl i)
  open_ : ∀ i, Open (n.cl i)
  fifo : ∀ i, (n.cl i).written = (n.cl i).replied.map (fun r => (r.1, r.2.1)) ++ (n.cl i).wire
  replied : ∀ i, (n.cl i).replied = (h i).map deedReply
  msg : ∀ i, ∀ a ∈ h i, (n.cl i).msg a.1.call = some a.1.msg
  good : ∀ i, ∀ a ∈ h i, GoodRes a.1.msg a.1.out
  played : ∀ i, Played user o0 ((h i).map Prod.fst) (n.con i).obj
  calls : ∀ i, hostCalls i ls = (((h i).map Prod.fst).map Deed.evs).flatten ++ cur i
  rest : ∀ i, (n.con i).running = none → cur i = []
  now : ∀ i p, (n.con i).running = some p → ∃ c q y spare, (n.cl i).wire = (c, q) :: y ∧
    Prog.Path (pdispatch user (n.con i).obj true ⟨[], q.drop 5, spare⟩ (q.getD 4 0)) (cur i) p
  terse : ∀ i, ∀ e ∈ hostCalls i ls, e.1.Terse e.2

/-- all calls made so far are in `P` and can be put on the wire -/
def BFit (P : TMsg → Prop) (n : Busy ω H) : Prop := ∀ i, CallsFit P (n.cl i)

theorem hostCalls_append (i : Nat) (as bs : List (BLabel ω H)) : hostCalls i (as ++ bs) = hostCalls i as ++ hostCalls i bs := by
  induction as with
  | nil => rfl
  | cons a as ih =>
    cases a <;> simp only [List.cons_append, hostCalls, ih]
    split <;> simp

theorem wire_prefix {s s' : State} {l : Label} (hl : ClientSide l) (hst : Step true l s s') : s.wire <+: s'.wire := by
  cases hst <;> first | exact hl.elim | exact List.prefix_refl _ | exact List.prefix_append _ _

theorem written_prefix {s s' : State} {l : Label} (hl : ClientSide l) (hst : Step true l s s') : s.written <+: s'.written := by
  cases hst <;> first | exact hl.elim | exact List.prefix_refl _ | exact List.prefix_append _ _

theorem upd_all {α : Type} {f : Nat → α} {i : Nat} {v : α} (p : α → Nat → Prop) (h1 : p v i) (h2 : ∀ j, j ≠ i → p (f j) j) : ∀ j, p (upd f i v j) j := by
  intro j
  by_cases hj : j = i
  · subst hj; rw [upd_same]; exact h1
  · rw [upd_other _ _ hj]; exact h2 j hj

/-- one more step and the history: the same calls, with the request being worked on as far as before or farther, or
one more answered call, the one that was worked on -/
def Further (h h' : Nat → List (Deed H × Tag)) (cur cur' : Nat → List (Ev H)) : Prop :=
  ∀ i, (h' i = h i ∧ cur i <+: cur' i) ∨ ∃ e t, h' i = h i ++ e :: t ∧ cur i <+: e.1.evs

/-- the outcome of a request that was run to its end -/
theorem finished {user : GoString} (hu : user.length < 2 ^ 13) {m : TMsg} {t : Tag} {spare : Bytes} {obj o : Obj H} {v : Bool} {b : Buffer}
    {evs : List (Ev H)} (hm : Ordinary m) (hf : m.Fits) (hl : (m.packet t).length < 2 ^ 32) (hev : ∀ e ∈ evs, e.1.Terse e.2)
    (hp : Prog.Path (pdispatch user obj true ⟨[], (m.packet t).drop 5, spare⟩ ((m.packet t).getD 4 0)) evs (.ret (o, v, b))) :
    ∃ out, GoodRes m out ∧ b.bytes = asPacket t out ∧
      (∀ o1 h1 c, Played user o1 h1 obj → Played user o1 (h1 ++ [⟨c, m, evs, out⟩]) o) ∧
      b.bytes.length = pktLen b.bytes ∧ tagField b.bytes = t.toNat := by
  have hrun := hp.replay rfl [] []
  rw [List.append_nil, List.nil_append] at hrun
  have hd : dispatch (ufs (scripted H) user) ⟨obj.into ⟨evs, []⟩, true⟩ ⟨[], (m.packet t).drop 5, spare⟩ ((m.packet t).getD 4 0) =
      .done ⟨o.into ⟨[], evs⟩, v⟩ b := by
    rw [run_dispatch, show (obj.into (⟨evs, []⟩ : Script H)).obj = obj from rfl,
      show (obj.into (⟨evs, []⟩ : Script H)).world = ⟨evs, []⟩ from rfl, hrun]
    rfl
  obtain ⟨-, hcase⟩ := serve_answer hf hl rfl hd
  have hmod := ufs_modest (tamed_short H) hu
  rcases hcase with ⟨r, hc, hb⟩ | ⟨e, hc, hb⟩
  · have hmod := (hmod m (obj.into ⟨evs, []⟩) hm hf).1 _ _ ((call_tamed user m obj ⟨evs, []⟩ hev).trans hc)
    refine ⟨.ok r, ⟨call_type _ m _ _ _ hc, hmod.1⟩, hb, fun o1 h1 c hpl => Played.ok c m evs hpl hc rfl, ?_, ?_⟩
    · rw [hb]; exact packetR_framing r t (hmod.2 t)
    · rw [hb]; exact tagField_packetR r t
  · have hmod := (hmod m (obj.into ⟨evs, []⟩) hm hf).2 _ _ ((call_tamed user m obj ⟨evs, []⟩ hev).trans hc)
    refine ⟨.error e, hmod, hb, fun o1 h1 c hpl => Played.err c m evs hpl hc rfl, ?_, ?_⟩
    · rw [hb]; exact packetR_framing _ t (error_length e t hmod)
    · rw [hb]; exact tagField_packetR _ t

theorem busy_step {host : Host ω H} (hh : host.Short) {user : GoString} (hu : user.length < 2 ^ 13) {o0 : Obj H} {ls : List (BLabel ω H)}
    {n n' : Busy ω H} {l : BLabel ω H} {h : Nat → List (Deed H × Tag)} {cur : Nat → List (Ev H)} (hi : BInv user o0 ls n h cur)
    (hf : BFit Ordinary n) (hs : BStep host user l n n') :
    ∃ h' cur', BInv user o0 (ls ++ [l]) n' h' cur' ∧ Further h h' cur cur' := by
  have same : Further h h cur cur := fun i => .inl ⟨rfl, List.prefix_refl _⟩
  have hcalls : ∀ i, hostCalls i [l] = [] → hostCalls i (ls ++ [l]) = hostCalls i ls := by
    intro i h; rw [hostCalls_append, h, List.append_nil]
  cases hs with
  | other _ w =>
    refine ⟨h, cur, ⟨hi.inv, hi.open_, hi.fifo, hi.replied, hi.msg, hi.good, hi.played, ?_, hi.rest, hi.now, ?_⟩, same⟩
    · intro i; rw [hcalls i rfl]; exact hi.calls i
    · intro i; rw [hcalls i rfl]; exact hi.terse i
  | start _ i c q y spare hw hr =>
    refine ⟨h, cur, ⟨hi.inv, hi.open_, hi.fifo, hi.replied, hi.msg, hi.good, ?_, ?_, ?_, ?_, ?_⟩, same⟩
    · exact upd_all (fun (c : Con H) j => Played user o0 ((h j).map Prod.fst) c.obj) (hi.played i) (fun j _ => hi.played j)
    · intro i; rw [hcalls i rfl]; exact hi.calls i
    · exact upd_all (fun (c : Con H) j => c.running = none → cur j = []) (fun h => by cases h) (fun j _ => hi.rest j)
    · refine upd_all (fun (con : Con H) j => ∀ p, con.running = some p → ∃ c q y spare, (n.cl j).wire = (c, q) :: y ∧
        Prog.Path (pdispatch user con.obj true ⟨[], q.drop 5, spare⟩ (q.getD 4 0)) (cur j) p) ?_ (fun j _ => hi.now j)
      rintro p hp
      cases hp
      rw [hi.rest i hr]
      exact ⟨c, q, y, spare, hw, .nil⟩
    · intro i; rw [hcalls i rfl]; exact hi.terse i
  | call _ i x k hr =>
    refine ⟨h, upd cur i (cur i ++ [⟨x, (host.exec x n.world).2⟩]),
      ⟨hi.inv, hi.open_, hi.fifo, hi.replied, hi.msg, hi.good, ?_, ?_, ?_, ?_, ?_⟩, ?_⟩
    · exact upd_all (fun (c : Con H) j => Played user o0 ((h j).map Prod.fst) c.obj) (hi.played i) (fun j _ => hi.played j)
    · intro j
      rw [hostCalls_append, hi.calls j]
      by_cases hj : j = i
      · subst hj; rw [upd_same]; simp [hostCalls]
      · rw [upd_other _ _ hj]; simp [hostCalls, Ne.symm hj]
    · intro j
      by_cases hj : j = i
      · subst hj; dsimp only; rw [upd_same, upd_same]; intro h; cases h
      · dsimp only; rw [upd_other _ _ hj, upd_other _ _ hj]; exact hi.rest j
    · intro j
      by_cases hj : j = i
      · subst hj; dsimp only; rw [upd_same, upd_same]
        rintro p hp
        cases hp
        obtain ⟨c, q, y, spare, hw, hp⟩ := hi.now j _ hr
        exact ⟨c, q, y, spare, hw, hp.snoc _⟩
      · dsimp only; rw [upd_other _ _ hj, upd_other _ _ hj]; exact hi.now j
    · intro j e he
      rw [hostCalls_append] at he
      rcases List.mem_append.1 he with he | he
      · exact hi.terse j e he
      · by_cases hj : j = i
        · subst hj
          simp [hostCalls] at he
          subst he
          exact hh.exec x n.world
        · simp [hostCalls, Ne.symm hj] at he
    · intro j
      refine .inl ⟨rfl, ?_⟩
      by_cases hj : j = i
      · subst hj; rw [upd_same]; exact List.prefix_append _ _
      · rw [upd_other _ _ hj]; exact List.prefix_refl _
  | client _ i l cl' hl hal hst =>
    have hsv : Serving l := by cases l <;> simp [ClientSide, Serving] at hl ⊢
    have hw : cl'.written = cl'.replied.map (fun r => (r.1, r.2.1)) ++ cl'.wire := by
      have hfifo := hi.fifo i
      generalize n.cl i = c at hst hfifo
      cases hst <;> first | exact hl.elim | exact hfifo | skip
      dsimp only at hfifo ⊢
      rw [hfifo, List.append_assoc]
    have hrep : cl'.replied = (n.cl i).replied := by
      generalize n.cl i = c at hst
      cases hst <;> first | exact hl.elim | rfl
    refine ⟨h, cur, ⟨upd_all (fun (s : State) _ => Inv s) (inv_step (serving_abiding l hsv) (hi.inv i) hst) (fun j _ => hi.inv j),
      upd_all (fun (s : State) _ => Open s) (open_step hsv (hi.inv i) (hi.open_ i) hst) (fun j _ => hi.open_ j),
      upd_all (fun (s : State) _ => s.written = s.replied.map (fun r => (r.1, r.2.1)) ++ s.wire) hw (fun j _ => hi.fifo j),
      upd_all (fun (s : State) j => s.replied = (h j).map deedReply) (hrep.trans (hi.replied i)) (fun j _ => hi.replied j),
      upd_all (fun (s : State) j => ∀ a ∈ h j, s.msg a.1.call = some a.1.msg) (fun a ha => msg_step (hi.inv i) hst (hi.msg i a ha)) (fun j _ => hi.msg j),
      hi.good, hi.played, ?_, hi.rest, ?_, ?_⟩, same⟩
    · intro i; rw [hcalls i rfl]; exact hi.calls i
    · refine upd_all (fun (s : State) j => ∀ p, (n.con j).running = some p → ∃ c q y spare, s.wire = (c, q) :: y ∧
        Prog.Path (pdispatch user (n.con j).obj true ⟨[], q.drop 5, spare⟩ (q.getD 4 0)) (cur j) p) ?_ (fun j _ => hi.now j)
      intro p hp
      obtain ⟨c, q, y, spare, hw, hp⟩ := hi.now i p hp
      obtain ⟨z, hz⟩ := wire_prefix hl hst
      exact ⟨c, q, y ++ z, spare, by rw [← hz, hw]; rfl, hp⟩
    · intro i; rw [hcalls i rfl]; exact hi.terse i
  | reply _ i c q y o v b hw hr =>
    obtain ⟨m, t, hlegal, hm, hq⟩ := (hi.inv i).wire (c, q) (by simp [hw])
    dsimp only at hm hq
    subst hq
    obtain ⟨hmP, hmf, hml⟩ := hf i c m hm
    obtain ⟨c', q', y', spare, hw', hp⟩ := hi.now i _ hr
    rw [hw] at hw'
    cases hw'
    obtain ⟨out, hg, hbo, hpl, hlen, htag⟩ := finished hu hmP hmf (hml t)
      (fun e he => hi.terse i e (by rw [hi.calls i]; exact List.mem_append_right _ he)) hp
    have hst : Step true .reply (n.cl i) (answeredWith (n.cl i) c (m.packet t) y b.bytes) :=
      Step.reply (n.cl i) [] y c (m.packet t) b.bytes hw hlen (by rw [htag, tagField_packet]) (hi.open_ i).closed
    refine ⟨upd h i (h i ++ [(⟨c, m, cur i, out⟩, t)]), upd cur i [],
      ⟨upd_all (fun (s : State) _ => Inv s) (inv_step (l := .reply) trivial (hi.inv i) hst) (fun j _ => hi.inv j),
      upd_all (fun (s : State) _ => Open s) (open_step (l := .reply) trivial (hi.inv i) (hi.open_ i) hst) (fun j _ => hi.open_ j),
      upd_all (fun (s : State) _ => s.written = s.replied.map (fun r => (r.1, r.2.1)) ++ s.wire) ?_ (fun j _ => hi.fifo j),
      ?_, ?_, ?_, ?_, ?_, ?_, ?_, ?_⟩, ?_⟩
    · have hfifo := hi.fifo i
      simp only [answeredWith]
      rw [hfifo, hw]
      simp
    · intro j
      by_cases hj : j = i
      · subst hj; dsimp only; rw [upd_same, upd_same]
        simp only [answeredWith]
        rw [hi.replied j, hbo]
        simp [deedReply]
      · dsimp only; rw [upd_other _ _ hj, upd_other _ _ hj]; exact hi.replied j
    · intro j
      by_cases hj : j = i
      · subst hj; dsimp only; rw [upd_same, upd_same]
        intro a ha
        rcases List.mem_append.1 ha with ha | ha
        · exact hi.msg j a ha
        · rw [List.mem_singleton.1 ha]; exact hm
      · dsimp only; rw [upd_other _ _ hj, upd_other _ _ hj]; exact hi.msg j
    · intro j
      by_cases hj : j = i
      · subst hj; rw [upd_same]
        intro a ha
        rcases List.mem_append.1 ha with ha | ha
        · exact hi.good j a ha
        · rw [List.mem_singleton.1 ha]; exact hg
      · rw [upd_other _ _ hj]; exact hi.good j
    · intro j
      by_cases hj : j = i
      · subst hj; dsimp only; rw [upd_same, upd_same]
        rw [List.map_append]
        exact hpl _ _ c (hi.played j)
      · dsimp only; rw [upd_other _ _ hj, upd_other _ _ hj]; exact hi.played j
    · intro j
      rw [hcalls j rfl, hi.calls j]
      by_cases hj : j = i
      · subst hj; rw [upd_same, upd_same]; simp
      · rw [upd_other _ _ hj, upd_other _ _ hj]
    · intro j
      by_cases hj : j = i
      · subst hj; rw [upd_same]; exact fun _ => rfl
      · dsimp only; rw [upd_other _ _ hj, upd_other _ _ hj]; exact hi.rest j
    · intro j
      by_cases hj : j = i
      · subst hj; dsimp only; rw [upd_same]; intro p hp; cases hp
      · dsimp only; rw [upd_other _ _ hj, upd_other _ _ hj, upd_other _ _ hj]; exact hi.now j
    · intro j; rw [hcalls j rfl]; exact hi.terse j
    · intro j
      by_cases hj : j = i
      · subst hj; rw [upd_same, upd_same]; exact .inr ⟨_, [], rfl, List.prefix_refl _⟩
      · rw [upd_other _ _ hj, upd_other _ _ hj]; exact .inl ⟨rfl, List.prefix_refl _⟩

theorem Further.trans {h h1 h2 : Nat → List (Deed H × Tag)} {cur cur1 cur2 : Nat → List (Ev H)} (a : Further h h1 cur cur1)
    (b : Further h1 h2 cur1 cur2) : Further h h2 cur cur2 := by
  intro i
  rcases a i with ⟨a1, a2⟩ | ⟨e, t, a1, a2⟩
  · rcases b i with ⟨b1, b2⟩ | ⟨e, t, b1, b2⟩
    · exact .inl ⟨b1.trans a1, a2.trans b2⟩
    · exact .inr ⟨e, t, by rw [b1, a1], a2.trans b2⟩
  · rcases b i with ⟨b1, b2⟩ | ⟨e', t', b1, b2⟩
    · exact .inr ⟨e, t, b1.trans a1, a2⟩
    · exact .inr ⟨e, t ++ e' :: t', by rw [b1, a1]; simp, a2⟩

theorem busy_fresh {host : Host ω H} {user : GoString} {n n' : Busy ω H} {l : BLabel ω H} (h : ∀ i, Fresh (n.cl i)) (hs : BStep host user l n n') :
    (∀ i, Fresh (n'.cl i)) ∧ ∀ i c m, (n.cl i).msg c = some m → (n'.cl i).msg c = some m := by
  cases hs with
  | other => exact ⟨h, fun _ _ _ hm => hm⟩
  | start => exact ⟨h, fun _ _ _ hm => hm⟩
  | call => exact ⟨h, fun _ _ _ hm => hm⟩
  | client _ i l cl' hl hal hst =>
    have := fresh_step (ns := ufs host user) (s := ⟨n.cl i, ⟨(n.con i).obj.into n.world, true⟩⟩) (h i) (SysStep.client l _ cl' _ hl hst)
    exact ⟨upd_all (fun (s : State) _ => Fresh s) this.1 (fun j _ => h j),
      upd_all (fun (s : State) j => ∀ c m, (n.cl j).msg c = some m → s.msg c = some m) this.2 (fun j _ _ _ hm => hm)⟩
  | reply _ i c q y o v b hw hr =>
    exact ⟨upd_all (fun (s : State) _ => Fresh s) (h i) (fun j _ => h j),
      upd_all (fun (s : State) j => ∀ c m, (n.cl j).msg c = some m → s.msg c = some m) (fun _ _ hm => hm) (fun j _ _ _ hm => hm)⟩

theorem busy_written {host : Host ω H} {user : GoString} {n n' : Busy ω H} {l : BLabel ω H} (hs : BStep host user l n n') (i : Nat) :
    (n.cl i).written <+: (n'.cl i).written := by
  revert i
  cases hs with
  | other => exact fun i => List.prefix_refl _
  | start => exact fun i => List.prefix_refl _
  | call => exact fun i => List.prefix_refl _
  | client _ i l cl' hl hal hst =>
    exact upd_all (fun (s : State) j => (n.cl j).written <+: s.written) (written_prefix hl hst) (fun j _ => List.prefix_refl _)
  | reply _ i c q y o v b hw hr =>
    exact upd_all (fun (s : State) j => (n.cl j).written <+: s.written) (List.prefix_refl _) (fun j _ => List.prefix_refl _)

theorem busy_exec {host : Host ω H} (hh : host.Short) {user : GoString} (hu : user.length < 2 ^ 13) {o0 : Obj H} {ls ls' : List (BLabel ω H)}
    {n n' : Busy ω H} {h : Nat → List (Deed H × Tag)} {cur : Nat → List (Ev H)} (hi : BInv user o0 ls n h cur)
    (he : BExec host user n ls' n') (hf : BFit Ordinary n') :
    (∀ i, (n.cl i).written <+: (n'.cl i).written) ∧ BFit Ordinary n ∧
    ∃ h' cur', BInv user o0 (ls ++ ls') n' h' cur' ∧ Further h h' cur cur' := by
  induction he with
  | refl => exact ⟨fun _ => List.prefix_refl _, hf, h, cur, by rw [List.append_nil]; exact hi, fun i => .inl ⟨rfl, List.prefix_refl _⟩⟩
  | @step n1 n2 ls1 l he hs ih =>
    have hfr : ∀ i, Fresh (n1.cl i) := by
      clear ih hf hs
      induction he with
      | refl => exact fun i c hc => (hi.inv i).idle c hc
      | step _ hs ih => exact (busy_fresh ih hs).1
    have hf1 : BFit Ordinary n1 := fun i c m hm => hf i c m ((busy_fresh hfr hs).2 i c m hm)
    obtain ⟨h0, hfn, h1, cur1, g1, g2⟩ := ih hf1
    obtain ⟨h2, cur2, k1, k2⟩ := busy_step hh hu g1 hf1 hs
    exact ⟨fun i => (h0 i).trans (busy_written hs i), hfn, h2, cur2, by rw [← List.append_assoc]; exact k1, g2.trans k2⟩

theorem bInv_start (user root : GoString) (w : ω) : BInv user (newObj root) [] (Busy.start (H := H) root w) (fun _ => []) (fun _ => []) :=
  ⟨fun _ => inv_init, fun _ => open_init, fun _ => rfl, fun _ => rfl, by simp, by simp, fun _ => .nil, fun _ => rfl, fun _ _ => rfl,
    fun i p hp => by (cases hp), by simp [hostCalls]⟩

theorem BInv.account {user root : GoString} {ls : List (BLabel ω H)} {n : Busy ω H} {h : Nat → List (Deed H × Tag)} {cur : Nat → List (Ev H)}
    (hi : BInv user (newObj root) ls n h cur) : Account user root ls n (fun i => (h i).map Prod.fst) := by
  have hord : ∀ i, ((h i).map Prod.fst).map Deed.call = (n.cl i).replied.map Prod.fst := by
    intro i; rw [hi.replied i]; simp [deedReply, Function.comp_def]
  refine ⟨hi.played, ?_, ?_, ?_, ?_, ?_⟩
  · intro i
    rw [hi.calls i]
    exact ⟨List.prefix_append _ _, fun hr => by rw [hi.rest i hr, List.append_nil]⟩
  · intro i
    rw [hord, hi.fifo i, List.map_append]
    exact ⟨(n.cl i).wire.map Prod.fst, by simp [Function.comp_def]⟩
  · intro i
    rw [hord, List.nodup_iff_count]
    intro c
    have h2 := (hi.inv i).once c
    have h3 := (hi.inv i).calls c
    simp only [allCalls, flights, List.map_append, List.count_append] at h2 h3
    cases hp : (n.cl i).phase c <;> simp only [hp, Phase.w, Phase.d] at h2 h3 <;> omega
  · intro i e he
    obtain ⟨a, ha, rfl⟩ := List.mem_map.1 he
    exact hi.msg i a ha
  · intro i c b hc
    obtain ⟨q, hq⟩ := (hi.inv i).done c b hc
    rw [hi.replied i] at hq
    obtain ⟨a, ha, heq⟩ := List.mem_map.1 hq
    simp only [deedReply, Prod.mk.injEq] at heq
    refine ⟨a.1, List.mem_map.2 ⟨a, ha, rfl⟩, heq.1, fun spare => ?_⟩
    have hg := hi.good i a ha
    rw [← heq.2.2]
    cases ho : a.1.out with
    | ok r =>
      rw [ho] at hg
      exact (C35_call_results a.1.msg spare a.2).1 r hg.1 hg.2
    | error x =>
      rw [ho] at hg
      exact (C35_call_results a.1.msg spare a.2).2 x hg

/-- **C93** Clients whose requests overlap.  Any number of clients of one file server process, each with any number of
concurrent callers, with the goroutines of the server and other processes running between any two calls of the
operating system.  At any moment `n` (after the steps `ls`) and later at `n'` (after the steps `ls'` more) there are
accounts `h` and `h'` of the calls of each client: the outcome of every call that has returned is that of its method
called directly, in the order in which the client wrote its requests, with the answers that the operating system gave
to the calls made for it.  `h'` continues `h`; the calls of the operating system for a call that had not been made at
`n` come after `n`, and those for a call in `h` (so for all calls that had returned) before `n`.  The operating system
made the calls in the order of the steps, in the worlds there were. -/
theorem C93_overlap {host : Host ω H} (hh : host.Short) {user : GoString} (hu : user.length < 2 ^ 13) (root : GoString) (w : ω)
    (n n' : Busy ω H) (ls ls' : List (BLabel ω H)) (he : BExec host user (Busy.start root w) ls n) (he' : BExec host user n ls' n')
    (hf : BFit Ordinary n') :
    ∃ h h', Account user root ls n h ∧ Account user root (ls ++ ls') n' h' ∧
      (∀ i, h i <+: h' i ∧ ∀ e ∈ h' i, (n.cl i).phase e.call = .idle →
        ∃ a b, h' i = a ++ e :: b ∧ (hostCalls i ls).length ≤ ((a.map Deed.evs).flatten).length) ∧
      Happened host w ls n.world ∧ Happened host w (ls ++ ls') n'.world := by
  have hap : ∀ {a b : Busy ω H} {as bs : List (BLabel ω H)}, Happened host w as a.world → BExec host user a bs b → Happened host w (as ++ bs) b.world := by
    intro a b as bs h0 h
    induction h with
    | refl => rw [List.append_nil]; exact h0
    | step _ hs ih =>
      rw [← List.append_assoc]
      cases hs with
      | client => exact .client _ _ ih
      | start => exact .start _ ih
      | call _ i x k => exact .call i x ih
      | reply => exact .reply _ ih
      | other _ w => exact .other w ih
  have hfn : BFit Ordinary n := by
    have hfr : ∀ {a b : Busy ω H} {bs : List (BLabel ω H)}, (∀ i, Fresh (a.cl i)) → BExec host user a bs b → (∀ i, Fresh (b.cl i)) ∧
        ∀ i c m, (a.cl i).msg c = some m → (b.cl i).msg c = some m := by
      intro a b bs h0 h
      induction h with
      | refl => exact ⟨h0, fun _ _ _ hm => hm⟩
      | step _ hs ih => exact ⟨(busy_fresh ih.1 hs).1, fun i c m hm => (busy_fresh ih.1 hs).2 i c m (ih.2 i c m hm)⟩
    exact fun i c m hm => hf i c m ((hfr (hfr (fun _ _ _ => rfl) he).1 he').2 i c m hm)
  obtain ⟨-, -, h, cur, hi, -⟩ := busy_exec hh hu (bInv_start user root w) he hfn
  rw [List.nil_append] at hi
  obtain ⟨hwr, -, h', cur', hi', hfu⟩ := busy_exec hh hu hi he' hf
  have w1 : Happened host w ls n.world := by simpa using hap (a := Busy.start root w) (as := []) .nil he
  refine ⟨_, _, hi.account, hi'.account, fun i => ⟨?_, ?_⟩, w1, hap w1 he'⟩
  · rcases hfu i with ⟨h1, -⟩ | ⟨e, t, h1, -⟩
    · rw [h1]; exact List.prefix_refl _
    · rw [h1, List.map_append]; exact List.prefix_append _ _
  · intro e hem hid
    have hne : ∀ a ∈ h i, a.1 ≠ e := by
      intro a ha hae
      have := hi.msg i a ha
      rw [hae, (hi.inv i).idle _ hid] at this
      cases this
    rcases hfu i with ⟨h1, -⟩ | ⟨e0, t, h1, h2⟩
    · rw [h1] at hem
      obtain ⟨a, ha, hae⟩ := List.mem_map.1 hem
      exact absurd hae (hne a ha)
    · rw [h1, List.map_append, List.map_cons] at hem ⊢
      have hlen : (hostCalls i ls).length = ((((h i).map Prod.fst).map Deed.evs).flatten).length + (cur i).length := by
        rw [hi.calls i, List.length_append]
      rcases List.mem_append.1 hem with hm | hm
      · obtain ⟨a, ha, hae⟩ := List.mem_map.1 hm
        exact absurd hae (hne a ha)
      · rcases List.mem_cons.1 hm with rfl | hm
        · -- the first one: nothing was being worked on
          refine ⟨_, _, rfl, ?_⟩
          have hcur : cur i = [] := by
            cases hr : (n.con i).running with
            | none => exact hi.rest i hr
            | some p =>
              exfalso
              obtain ⟨c, q, y, spare, hw, -⟩ := hi.now i p hr
              obtain ⟨z, hz⟩ := hwr i
              have hw' := hi'.fifo i
              rw [← hz, hi.fifo i, hw, hi'.replied i, hi.replied i, h1, List.map_append, List.map_append, List.append_assoc, List.append_assoc] at hw'
              have := List.append_cancel_left hw'
              simp only [List.cons_append, List.map_cons, List.cons.injEq, deedReply, Prod.mk.injEq] at this
              obtain ⟨m, t', -, hm', -⟩ := (hi.inv i).wire (c, q) (by simp [hw])
              rw [this.1.1, (hi.inv i).idle _ hid] at hm'
              cases hm'
          rw [hlen, hcur]
          simp
        · obtain ⟨a, b, hab⟩ := List.append_of_mem hm
          refine ⟨(h i).map Prod.fst ++ e0.1 :: a, b, by rw [hab]; simp, ?_⟩
          rw [hlen]
          have := h2.length_le
          simp only [List.map_append, List.map_cons, List.flatten_append, List.flatten_cons, List.length_append]
          omega

/-! ### progress -/

/-- the steps of client `i` that need no new call, and those of the goroutine of its connection -/
def BOwn (i : Nat) : BLabel ω H → Prop
  | .client j l => j = i ∧ Internal l
  | .start j => j = i
  | .call j _ => j = i
  | .reply j => j = i
  | .other _ => False

/-- no new calls by client `i` -/
def BNoCall (i : Nat) : BLabel ω H → Prop
  | .client j l => j = i → Internal l
  | _ => True

/-- what a step means for client `i` -/
theorem busy_work {host : Host ω H} {user : GoString} {i : Nat} {n n' : Busy ω H} {l : BLabel ω H} (hl : BNoCall i l) (hs : BStep host user l n n') :
    (¬ BOwn i l → n'.cl i = n.cl i ∧ n'.con i = n.con i) ∧
    (BOwn i l → work (n'.cl i) < work (n.cl i) ∨ n'.cl i = n.cl i ∧
      (((n.con i).running = none ∧ ∃ p, (n'.con i).running = some p) ∨
       ∃ x k a, (n.con i).running = some (.call x k) ∧ (n'.con i).running = some (k a))) := by
  cases hs with
  | other => exact ⟨fun _ => ⟨rfl, rfl⟩, fun h => h.elim⟩
  | client _ j l cl' hcl hal hst =>
    by_cases hj : j = i
    · subst hj
      have : work cl' < work (n.cl j) := work_step (hl rfl) hst
      exact ⟨fun h => absurd ⟨rfl, hl rfl⟩ h, fun _ => .inl (by dsimp only; rw [upd_same]; exact this)⟩
    · exact ⟨fun _ => ⟨upd_other _ _ (Ne.symm hj), rfl⟩, fun h => absurd h.1 hj⟩
  | start _ j c q y spare hw hr =>
    by_cases hj : j = i
    · subst hj
      exact ⟨fun h => absurd rfl h, fun _ => .inr ⟨rfl, .inl ⟨hr, _, by dsimp only; rw [upd_same]⟩⟩⟩
    · exact ⟨fun _ => ⟨rfl, upd_other _ _ (Ne.symm hj)⟩, fun h => absurd h hj⟩
  | call _ j x k hr =>
    by_cases hj : j = i
    · subst hj
      exact ⟨fun h => absurd rfl h, fun _ => .inr ⟨rfl, .inr ⟨x, k, _, hr, by dsimp only; rw [upd_same]⟩⟩⟩
    · exact ⟨fun _ => ⟨rfl, upd_other _ _ (Ne.symm hj)⟩, fun h => absurd h hj⟩
  | reply _ j c q y o v b hw hr =>
    by_cases hj : j = i
    · subst hj
      refine ⟨fun h => absurd rfl h, fun _ => .inl ?_⟩
      dsimp only
      rw [upd_same]
      simp [work, answeredWith, hw]; omega
    · exact ⟨fun _ => ⟨upd_other _ _ (Ne.symm hj), upd_other _ _ (Ne.symm hj)⟩, fun h => absurd h hj⟩

theorem first_such {p : Nat → Prop} {k : Nat} (h : ∃ j, k ≤ j ∧ p j) : ∃ j, k ≤ j ∧ p j ∧ ∀ x, k ≤ x → x < j → ¬ p x := by
  obtain ⟨j, hj, hp⟩ := h
  induction j using Nat.strongRecOn with
  | ind j ih =>
    by_cases hex : ∃ x, k ≤ x ∧ x < j ∧ p x
    · obtain ⟨x, h1, h2, h3⟩ := hex
      exact ih x h2 h1 h3
    · exact ⟨j, hj, hp, fun x h1 h2 h3 => hex ⟨x, h1, h2, h3⟩⟩

/-- **C93**, progress.  No client is kept from its answers by what the others do: as long as client `i` makes no new
calls it and the goroutine of its connection make only finitely many steps, however long the others go on, and when
none of these steps is possible any more all calls of client `i` have returned. -/
theorem C93_returns {host : Host ω H} (hh : host.Short) {user : GoString} (hu : user.length < 2 ^ 13) (root : GoString) (w : ω)
    (n : Busy ω H) (ls : List (BLabel ω H)) (he : BExec host user (Busy.start root w) ls n) (hf : BFit Ordinary n) (i : Nat) :
    (∀ (f : Nat → Busy ω H) (ls : Nat → BLabel ω H), f 0 = n → (∀ k, BNoCall i (ls k) ∧ BStep host user (ls k) (f k) (f (k + 1))) →
      ∃ k0, ∀ k, k0 ≤ k → ¬ BOwn i (ls k)) ∧
    ((n.cl i).taken.length < 65534 → (∀ l n', BOwn i l → ¬ BStep host user l n n') →
      ∀ c, (n.cl i).phase c ≠ .idle → ∃ b, (n.cl i).phase c = .done b) := by
  refine ⟨?_, ?_⟩
  · intro f ls _ hs
    have still : ∀ k d, (∀ x, k ≤ x → x < k + d → ¬ BOwn i (ls x)) → (f (k + d)).cl i = (f k).cl i ∧ (f (k + d)).con i = (f k).con i := by
      intro k d
      induction d with
      | zero => exact fun _ => ⟨rfl, rfl⟩
      | succ d ih =>
        intro h
        have h1 := ih fun x a b => h x a (by omega)
        have h2 := (busy_work (hs (k + d)).1 (hs (k + d)).2).1 (h (k + d) (by omega) (by omega))
        exact ⟨h2.1.trans h1.1, h2.2.trans h1.2⟩
    -- the next step of the client's own, with the client as it was
    have next : ∀ k, (∃ k0, ∀ k, k0 ≤ k → ¬ BOwn i (ls k)) ∨ ∃ j, k ≤ j ∧ (f j).cl i = (f k).cl i ∧ (f j).con i = (f k).con i ∧ BOwn i (ls j) := by
      intro k
      by_cases hex : ∃ j, k ≤ j ∧ BOwn i (ls j)
      · obtain ⟨j, h1, h2, h3⟩ := first_such hex
        have := still k (j - k) (fun x a b => h3 x a (by omega))
        rw [Nat.add_sub_cancel' h1] at this
        exact .inr ⟨j, h1, this.1, this.2, h2⟩
      · exact .inl ⟨k, fun j hj ho => hex ⟨j, hj, ho⟩⟩
    have key : ∀ v k, work ((f k).cl i) < v → ∃ k0, ∀ k, k0 ≤ k → ¬ BOwn i (ls k) := by
      intro v
      induction v with
      | zero => intro k hk; omega
      | succ v ih =>
        have hsome : ∀ p k, work ((f k).cl i) < v + 1 → ((f k).con i).running = some p → ∃ k0, ∀ k, k0 ≤ k → ¬ BOwn i (ls k) := by
          intro p
          induction p with
          | ret a =>
            intro k hk hr
            rcases next k with h | ⟨j, h1, h2, h3, h4⟩
            · exact h
            · rcases (busy_work (hs j).1 (hs j).2).2 h4 with h | ⟨-, h | ⟨x, q, a, h, -⟩⟩
              · exact ih (j + 1) (by rw [h2] at h; omega)
              · rw [h3, hr] at h; cases h.1
              · rw [h3, hr] at h; cases h
          | panic =>
            intro k hk hr
            rcases next k with h | ⟨j, h1, h2, h3, h4⟩
            · exact h
            · rcases (busy_work (hs j).1 (hs j).2).2 h4 with h | ⟨-, h | ⟨x, q, a, h, -⟩⟩
              · exact ih (j + 1) (by rw [h2] at h; omega)
              · rw [h3, hr] at h; cases h.1
              · rw [h3, hr] at h; cases h
          | call x q ihp =>
            intro k hk hr
            rcases next k with h | ⟨j, h1, h2, h3, h4⟩
            · exact h
            · rcases (busy_work (hs j).1 (hs j).2).2 h4 with h | ⟨hw, h | ⟨x', q', a, h, h'⟩⟩
              · exact ih (j + 1) (by rw [h2] at h; omega)
              · rw [h3, hr] at h; cases h.1
              · rw [h3, hr] at h
                cases h
                exact ihp a (j + 1) (by rw [hw, h2]; exact hk) h'
        intro k hk
        cases hr : ((f k).con i).running with
        | some p => exact hsome p k hk hr
        | none =>
          rcases next k with h | ⟨j, h1, h2, h3, h4⟩
          · exact h
          · rcases (busy_work (hs j).1 (hs j).2).2 h4 with h | ⟨hw, ⟨-, p, hp⟩ | ⟨x, q, a, h, -⟩⟩
            · exact ih (j + 1) (by rw [h2] at h; omega)
            · exact hsome p (j + 1) (by rw [hw, h2]; exact hk) hp
            · rw [h3, hr] at h; cases h
    exact key _ 0 (Nat.lt_succ_self _)
  · intro ht hno c hc
    obtain ⟨-, -, h, cur, hi, -⟩ := busy_exec hh hu (bInv_start user root w) he hf
    rw [List.nil_append] at hi
    have hstuck : Stuck (n.cl i) := by
      intro l s' hl hst
      by_cases hcl : ClientSide l
      · exact hno (.client i l) _ ⟨rfl, hl⟩ (BStep.client n i l s' hcl (hi.open_ i).recv hst)
      · have hlr : l = .reply := by
          revert hl hcl
          cases l <;> simp [Internal, ClientSide]
        subst hlr
        have hne : (n.cl i).wire ≠ [] := by
          revert hst
          generalize n.cl i = s
          intro hst
          cases hst with | reply _ x y c q p h1 => simp [h1]
        match hw : (n.cl i).wire, hne with
        | (d, q) :: y, _ =>
          cases hr : (n.con i).running with
          | none => exact hno (.start i) _ rfl (BStep.start n i d q y [] hw hr)
          | some p =>
            cases p with
            | call x k => exact hno (.call i ⟨x, (host.exec x n.world).2⟩) _ rfl (BStep.call n i x k hr)
            | ret r =>
              obtain ⟨o, v, b⟩ := r
              exact hno (.reply i) _ rfl (BStep.reply n i d q y o v b hw hr)
            | panic =>
              obtain ⟨d', q', y', spare, hw', hp⟩ := hi.now i _ hr
              rw [hw] at hw'
              cases hw'
              obtain ⟨m, t, -, hm, hq⟩ := (hi.inv i).wire (d, q) (by simp [hw])
              dsimp only at hm hq
              subst hq
              obtain ⟨hmP, hmf, hml⟩ := hf i d m hm
              obtain ⟨-, h2, h3⟩ := packet_framing m t (hml t)
              have hrun := hp.replay_panic rfl []
              have hd : dispatch (ufs (scripted H) user) ⟨(n.con i).obj.into ⟨cur i, []⟩, true⟩ ⟨[], (m.packet t).drop 5, spare⟩ ((m.packet t).getD 4 0) = .panic := by
                rw [run_dispatch, show ((n.con i).obj.into (⟨cur i, []⟩ : Script H)).obj = (n.con i).obj from rfl,
                  show ((n.con i).obj.into (⟨cur i, []⟩ : Script H)).world = ⟨cur i, []⟩ from rfl, hrun]
                rfl
              rw [h2, h3, dispatch_request _ m _ _ (.inl rfl), (lawsT m).fwd hmf] at hd
              unfold handle at hd
              dsimp only at hd
              cases hcall : Spec.call (ufs (scripted H) user) m ((n.con i).obj.into ⟨cur i, []⟩) with
              | panic => exact ufs_returns _ _ hmP hcall
              | ok x r => simp [hcall] at hd
              | err x r => simp [hcall] at hd
    have hr : (n.cl i).recv = .idle := by
      rcases stuck_recv (hi.inv i) hstuck with h | h
      · exact h
      · exact absurd h (hi.open_ i).recv
    have hq := stuck_all (hi.inv i) hstuck hr (hi.open_ i).reader ht
    rcases quiet_calls (hi.inv i) hr hq c with h | h
    · exact absurd h hc
    · exact h

end Ninep.Client

namespace Ninep.Ufs
open Client Spec

/-- C93: two clients attach; while the server works on the request of the first it makes a call of the operating
system for the second.  Both calls return. -/
theorem busy_instance : ∃ n ls b b', BExec Mem.shortHost (lit "harvey") (Busy.start [47, 120] Mem.world0) ls n ∧
    (∀ i c m, (n.cl i).msg c = some m → m = .attach { SFID := 0, AFID := 0xFFFFFFFF }) ∧ (n.cl 0).phase 0 = .done b ∧ (n.cl 1).phase 0 = .done b' := by
  obtain ⟨ts, hts⟩ := init_tags
  have hlen := init_tags_length hts
  obtain ⟨n1, g1, a1, a2, a3, a4, a5, a6, a7⟩ := busy_ask (host := Mem.shortHost) (user := lit "harvey") (i := 0)
    (Busy.start [47, 120] Mem.world0) init_ready hts (.attach { SFID := 0, AFID := 0xFFFFFFFF })
  obtain ⟨n2, g2, b1, b2, b3, b4, b5, b6, b7⟩ := busy_ask (host := Mem.shortHost) (user := lit "harvey") (i := 1) (k := 0) n1
    (by rw [a3 1 (by decide)]; exact init_ready) (by rw [a3 1 (by decide)]; exact hts) (.attach { SFID := 0, AFID := 0xFFFFFFFF })
  have k0 : Asked (n2.cl 0) 0 (.attach { SFID := 0, AFID := 0xFFFFFFFF }) 1 := by rw [b3 0 (by decide)]; exact a4
  obtain ⟨n3, g3, c1, c2, c3, c4⟩ := busy_begin (host := Mem.shortHost) (user := lit "harvey") 0 n2 k0 (by rw [b1, a1]; rfl)
  obtain ⟨n4, g4, d1, d2, d3, d4⟩ := busy_begin (host := Mem.shortHost) (user := lit "harvey") (i := 1) 1 n3 (by rw [c1]; exact b4)
    (by rw [c2 1 (by decide), b1, a1]; rfl)
  have o1 : (n3.con 1).obj = newObj [47, 120] := by rw [c2 1 (by decide), b1, a1]; rfl
  have o0 : (n2.con 0).obj = newObj [47, 120] := by rw [b1, a1]; rfl
  have w2 : n2.world = Mem.world0 := by rw [b2, a2]; rfl
  rw [o0, w2] at c3 c4
  have w3 : n3.world = Mem.world0 := c3
  rw [o1, w3] at d3 d4
  have w4 : n4.world = Mem.world0 := d3
  have r4 : (n4.con 0).running = some (reqProg (lit "harvey") (newObj [47, 120]) (.attach { SFID := 0, AFID := 0xFFFFFFFF }) 1) := by
    rw [d2 0 (by decide), c4]; rfl
  obtain ⟨n5, g5, e1, e2, e3, e4⟩ := busy_more (host := Mem.shortHost) (user := lit "harvey") 1 n4 _ r4
  rw [w4] at e3 e4
  obtain ⟨o, v, b, hb, ht⟩ : ∃ o v b, (progSteps Mem.shortHost 1 (reqProg (lit "harvey") (newObj [47, 120])
      (.attach { SFID := 0, AFID := 0xFFFFFFFF }) 1) Mem.world0).1 = .ret (o, v, b) ∧ pktTag b.bytes = 1 := ⟨_, _, _, rfl, by decide⟩
  have r0 : (n5.con 0).running = some (.ret (o, v, b)) := by rw [e4]; exact congrArg some hb
  have r1 : (n5.con 1).running = some (.ret (o, v, b)) := by rw [e2 1 (by decide), d4]; exact congrArg some hb
  have q0 : n5.cl 0 = n1.cl 0 := by rw [e1, d1, c1, b3 0 (by decide)]
  have q1 : n5.cl 1 = n2.cl 1 := by rw [e1, d1, c1]
  obtain ⟨n6, g6, f1, f2, f3, f4, f5, f6, f7, f8⟩ := busy_tell (host := Mem.shortHost) (user := lit "harvey") (i := 1) n5 (by rw [q1]; exact b4) r1 ht
    (by decide) (by decide) (by rw [q1, b5]; exact hlen)
  obtain ⟨n7, g7, h1, h2, h3, h4, h5, h6, h7, h8⟩ := busy_tell (host := Mem.shortHost) (user := lit "harvey") (i := 0) n6
    (by rw [f3 0 (by decide), q0]; exact a4) (by rw [f1]; exact r0) ht (by decide) (by decide) (by rw [f3 0 (by decide), q0, a5]; exact hlen)
  obtain ⟨ls, -, he⟩ := (((((g1.trans g2).trans g3).trans g4).trans g5).trans g6).trans g7
  refine ⟨n7, ls, _, _, he, ?_, h5, by rw [h3 1 (by decide)]; exact f5⟩
  have fits : ∀ s : Client.State, s.msg = upd init.msg 0 (some (.attach { SFID := 0, AFID := 0xFFFFFFFF })) →
      ∀ c m, s.msg c = some m → m = .attach { SFID := 0, AFID := 0xFFFFFFFF } := by
    intro s hs c m hm
    rw [hs] at hm
    by_cases h : c = 0
    · subst h
      simp [upd] at hm
      exact hm.symm
    · simp [upd, h, init] at hm
  intro i
  by_cases i0 : i = 0
  · subst i0
    exact fits _ (by rw [h7, f3 0 (by decide), q0, a6]; rfl)
  · rw [h3 i i0]
    by_cases i1 : i = 1
    · subst i1
      exact fits _ (by rw [f7, q1, b6, a3 1 (by decide)]; rfl)
    · rw [f3 i i1, e1, d1, c1, b3 i i1, a3 i i0]
      intro c m hm
      cases hm

theorem attach_fits {n : Busy Mem.World Nat} (h : ∀ i c m, (n.cl i).msg c = some m → m = .attach { SFID := 0, AFID := 0xFFFFFFFF }) : BFit Ordinary n := by
  intro i c m hm
  rw [h i c m hm]
  simp [Ordinary, TMsg.Fits, TMsg.packet, Spec.packet, TMsg.body, TMsg.fields, str]

example : ∃ n ls b b', BExec Mem.shortHost (lit "harvey") (Busy.start [47, 120] Mem.world0) ls n ∧ BFit Ordinary n ∧
    (n.cl 0).phase 0 = .done b ∧ (n.cl 1).phase 0 = .done b' := by
  obtain ⟨n, ls, b, b', h1, h2, h3, h4⟩ := busy_instance
  exact ⟨n, ls, b, b', h1, attach_fits h2, h3, h4⟩

end Ninep.Ufs
