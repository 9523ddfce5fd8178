import Verif.Client.Many
import Verif.Props.Stack

set_option linter.unusedSimpArgs false
set_option linter.unusedVariables false

/-!
# Many clients, one file system (C89)

All calls of all clients, taken together, behave like calls of the methods of the file servers one after the other,
in one order that respects real time.
-/

namespace Ninep.Client
open Spec Ufs
variable {ω H : Type}

/-- a call that was made directly: which client, which of its calls, the arguments and the outcome -/
structure Made where
  client : Nat
  call : Nat
  msg : TMsg
  out : Except GoString RMsg

/-- Methods of the file servers of several connections called directly, one after the other, in one world; in between
other processes change the world, to the worlds in the first list, one after the other.  When this list is empty nobody
else changes anything. -/
inductive Direct (ns : NineServer (Ufs.State ω H)) (o0 : Nat → Obj H) (w0 : ω) : List ω → List Made → (Nat → Obj H) → ω → Prop
  | nil : Direct ns o0 w0 [] [] o0 w0
  | ok {us h o w} (i c : Nat) (m : TMsg) {s' r} : Direct ns o0 w0 us h o w → Spec.call ns m ((o i).into w) = .ok s' r →
      Direct ns o0 w0 us (h ++ [⟨i, c, m, .ok r⟩]) (upd o i s'.obj) s'.world
  | err {us h o w} (i c : Nat) (m : TMsg) {s' e} : Direct ns o0 w0 us h o w → Spec.call ns m ((o i).into w) = .err s' e →
      Direct ns o0 w0 us (h ++ [⟨i, c, m, .error e⟩]) (upd o i s'.obj) s'.world
  | other {us h o w} (w' : ω) : Direct ns o0 w0 us h o w → Direct ns o0 w0 (us ++ [w']) h o w'

/-- the worlds that other processes made -/
def netOthers (ls : List (NetLabel ω)) : List ω := ls.filterMap fun
  | .other w => some w
  | _ => none

/-- a call that was answered, with its tag -/
structure Ans where
  made : Made
  tag : Tag

def Ans.replied (a : Ans) : Nat × Bytes × Bytes := (a.made.call, a.made.msg.packet a.tag, asPacket a.tag a.made.out)

structure NetInv (ns : NineServer (Ufs.State ω H)) (o0 : Nat → Obj H) (w0 : ω) (us : List ω) (n : Net ω H) (h : List Ans) : Prop where
  inv : ∀ i, Inv (n.cl i)
  open_ : ∀ i, Open (n.cl i)
  fifo : ∀ i, (n.cl i).written = (n.cl i).replied.map (fun r => (r.1, r.2.1)) ++ (n.cl i).wire
  replied : ∀ i, (n.cl i).replied = (h.filter fun a => a.made.client = i).map Ans.replied
  msg : ∀ a ∈ h, (n.cl a.made.client).msg a.made.call = some a.made.msg
  direct : Direct ns o0 w0 us (h.map Ans.made) n.obj n.world
  good : ∀ a ∈ h, GoodRes a.made.msg a.made.out

/-- all calls made so far are in `P` and can be put on the wire -/
def NetFit (P : TMsg → Prop) (n : Net ω H) : Prop := ∀ i, CallsFit P (n.cl i)

theorem net_step {P : TMsg → Prop} {ns : NineServer (Ufs.State ω H)} (hns : Modest P ns) {o0 : Nat → Obj H} {w0 : ω}
    {us : List ω} {n n' : Net ω H} {l : NetLabel ω} {h : List Ans} (hi : NetInv ns o0 w0 us n h) (hf : NetFit P n) (hs : NetStep ns l n n') :
    ∃ t, NetInv ns o0 w0 (us ++ netOthers [l]) n' (h ++ t) ∧
      ∀ o1 w1 u1 h1, Direct ns o1 w1 u1 h1 n.obj n.world → Direct ns o1 w1 (u1 ++ netOthers [l]) (h1 ++ t.map Ans.made) n'.obj n'.world := by
  cases hs with
  | other _ w =>
    exact ⟨[], by rw [List.append_nil]; exact ⟨hi.inv, hi.open_, hi.fifo, hi.replied, hi.msg, .other w hi.direct, hi.good⟩,
      fun o1 w1 u1 h1 hd => by rw [List.map_nil, List.append_nil]; exact .other w hd⟩
  | client _ i l cl' hl hal hst =>
    refine ⟨[], ?_, fun o1 w1 u1 h1 hd => by rw [List.map_nil, List.append_nil]; show Direct _ _ _ (u1 ++ []) _ _ _; rw [List.append_nil]; exact hd⟩
    rw [List.append_nil]
    show NetInv ns o0 w0 (us ++ []) _ _
    rw [List.append_nil]
    have hsv : Serving l := by cases l <;> simp [ClientSide, Serving] at hl ⊢
    have hw : cl'.written = cl'.replied.map (fun r => (r.1, r.2.1)) ++ cl'.wire := by
      have hfifo := hi.fifo i
      generalize n.cl i = c at hst hfifo
      cases hst <;> first | exact hl.elim | exact hfifo | skip
      dsimp only at hfifo ⊢
      rw [hfifo, List.append_assoc]
    have hrep : cl'.replied = (n.cl i).replied := by
      generalize n.cl i = c at hst
      cases hst <;> first | exact hl.elim | rfl
    have cases_ (p : State → Nat → Prop) (h1 : p cl' i) (h2 : ∀ j, p (n.cl j) j) : ∀ j, p (upd n.cl i cl' j) j := by
      intro j
      by_cases hj : j = i
      · subst hj; rw [upd_same]; exact h1
      · rw [upd_other _ _ hj]; exact h2 j
    refine ⟨cases_ (fun s _ => Inv s) (inv_step (serving_abiding l hsv) (hi.inv i) hst) hi.inv,
      cases_ (fun s _ => Open s) (open_step hsv (hi.inv i) (hi.open_ i) hst) hi.open_,
      cases_ (fun s _ => s.written = s.replied.map (fun r => (r.1, r.2.1)) ++ s.wire) hw hi.fifo,
      cases_ (fun s j => s.replied = (h.filter fun a => a.made.client = j).map Ans.replied) (hrep.trans (hi.replied i)) hi.replied,
      ?_, hi.direct, hi.good⟩
    intro a ha
    refine cases_ (fun s j => a.made.client = j → s.msg a.made.call = some a.made.msg) ?_ ?_ a.made.client rfl
    · intro hai
      exact msg_step (hi.inv i) hst (hai ▸ hi.msg a ha)
    · intro j hj; subst hj; exact hi.msg a ha
  | serve _ i c q y spare srv b hw hd =>
    obtain ⟨m, t, hlegal, hm, hq⟩ := (hi.inv i).wire (c, q) (by simp [hw])
    dsimp only at hm hq
    subst hq
    obtain ⟨hmP, hmf, hml⟩ := hf i c m hm
    obtain ⟨-, hcase⟩ := serve_answer hmf (hml t) rfl hd
    have hgood : ∃ out, GoodRes m out ∧ b.bytes = asPacket t out ∧
        (∀ o1 w1 u1 h1, Direct ns o1 w1 u1 h1 n.obj n.world →
          Direct ns o1 w1 u1 (h1 ++ [⟨i, c, m, out⟩]) (upd n.obj i srv.ns.obj) srv.ns.world) ∧
        b.bytes.length = pktLen b.bytes ∧ tagField b.bytes = t.toNat := by
      rcases hcase with ⟨r, hc, hb⟩ | ⟨e, hc, hb⟩
      · have hmod := (hns m _ hmP hmf).1 _ _ hc
        have hty : r.type = m.type + 1 := call_type ns m _ _ _ hc
        refine ⟨.ok r, ⟨hty, hmod.1⟩, hb, fun o1 w1 u1 h1 hd => Direct.ok i c m hd hc, ?_, ?_⟩
        · rw [hb]; exact packetR_framing r t (hmod.2 t)
        · rw [hb]; exact tagField_packetR r t
      · have hmod := (hns m _ hmP hmf).2 _ _ hc
        refine ⟨.error e, hmod, hb, fun o1 w1 u1 h1 hd => Direct.err i c m hd hc, ?_, ?_⟩
        · rw [hb]; exact packetR_framing _ t (error_length e t hmod)
        · rw [hb]; exact tagField_packetR _ t
    obtain ⟨out, hg, hbo, hdir, hlen, htag⟩ := hgood
    have hst : Step true .reply (n.cl i) _ := Step.reply (n.cl i) [] y c (m.packet t) b.bytes hw hlen
      (by rw [htag, tagField_packet]) (hi.open_ i).closed
    rw [show netOthers [(NetLabel.serve i : NetLabel ω)] = [] from rfl]
    simp only [List.append_nil]
    refine ⟨[⟨⟨i, c, m, out⟩, t⟩], ?_, hdir⟩
    have cases_ (p : State → Nat → Prop) (h1 : p { n.cl i with
            wire := y
            fromNet := (n.cl i).fromNet ++ [{ owner := some c, bytes := b.bytes }]
            replied := (n.cl i).replied ++ [(c, m.packet t, b.bytes)] } i) (h2 : ∀ j, j ≠ i → p (n.cl j) j) :
        ∀ j, p (upd n.cl i { n.cl i with
            wire := y
            fromNet := (n.cl i).fromNet ++ [{ owner := some c, bytes := b.bytes }]
            replied := (n.cl i).replied ++ [(c, m.packet t, b.bytes)] } j) j := by
      intro j
      by_cases hj : j = i
      · subst hj; rw [upd_same]; exact h1
      · rw [upd_other _ _ hj]; exact h2 j hj
    refine ⟨cases_ (fun s _ => Inv s) (inv_step (l := .reply) trivial (hi.inv i) hst) (fun j _ => hi.inv j),
      cases_ (fun s _ => Open s) (open_step (l := .reply) trivial (hi.inv i) (hi.open_ i) hst) (fun j _ => hi.open_ j),
      cases_ (fun s _ => s.written = s.replied.map (fun r => (r.1, r.2.1)) ++ s.wire) ?_ (fun j _ => hi.fifo j),
      cases_ (fun s j => s.replied = ((h ++ [(⟨⟨i, c, m, out⟩, t⟩ : Ans)]).filter fun a => a.made.client = j).map Ans.replied) ?_ ?_,
      ?_, ?_, ?_⟩
    · have hfifo := hi.fifo i
      dsimp only
      rw [hfifo, hw]
      simp
    · dsimp only
      rw [hi.replied i, List.filter_append, List.map_append, hbo]
      simp [Ans.replied]
    · intro j hj
      rw [hi.replied j, List.filter_append, List.map_append]
      simp [Ne.symm hj]
    · intro a ha
      refine cases_ (fun s j => a.made.client = j → s.msg a.made.call = some a.made.msg) ?_ ?_ a.made.client rfl
      · intro hai
        rcases List.mem_append.1 ha with ha | ha
        · exact hai ▸ hi.msg a ha
        · rw [List.mem_singleton.1 ha]; exact hm
      · intro j hj hji
        rcases List.mem_append.1 ha with ha | ha
        · subst hji; exact hi.msg a ha
        · rw [List.mem_singleton.1 ha] at hji; exact absurd hji.symm hj
    · rw [List.map_append]; exact hdir _ _ _ _ hi.direct
    · intro a ha
      rcases List.mem_append.1 ha with ha | ha
      · exact hi.good a ha
      · rw [List.mem_singleton.1 ha]; exact hg

/-! ### executions -/

theorem net_fresh {ns : NineServer (Ufs.State ω H)} {n n' : Net ω H} {l : NetLabel ω} (h : ∀ i, Fresh (n.cl i)) (hs : NetStep ns l n n') :
    (∀ i, Fresh (n'.cl i)) ∧ ∀ i c m, (n.cl i).msg c = some m → (n'.cl i).msg c = some m := by
  cases hs with
  | other => exact ⟨h, fun _ _ _ hm => hm⟩
  | client _ i l cl' hl hal hst =>
    have := fresh_step (ns := ns) (s := ⟨n.cl i, ⟨(n.obj i).into n.world, true⟩⟩) (h i) (SysStep.client l _ cl' _ hl hst)
    constructor
    · intro j
      by_cases hj : j = i
      · subst hj; dsimp only; rw [upd_same]; exact this.1
      · dsimp only; rw [upd_other _ _ hj]; exact h j
    · intro j c m hm
      by_cases hj : j = i
      · subst hj; dsimp only; rw [upd_same]; exact this.2 c m hm
      · dsimp only; rw [upd_other _ _ hj]; exact hm
  | serve _ i c q y spare srv b hw hd =>
    constructor
    · intro j
      by_cases hj : j = i
      · subst hj; dsimp only; rw [upd_same]; exact h j
      · dsimp only; rw [upd_other _ _ hj]; exact h j
    · intro j c m hm
      by_cases hj : j = i
      · subst hj; dsimp only; rw [upd_same]; exact hm
      · dsimp only; rw [upd_other _ _ hj]; exact hm

theorem net_exec {P : TMsg → Prop} {ns : NineServer (Ufs.State ω H)} (hns : Modest P ns) {o0 : Nat → Obj H} {w0 : ω}
    {us : List ω} {n n' : Net ω H} {ls : List (NetLabel ω)} {h : List Ans} (hi : NetInv ns o0 w0 us n h) (he : NetExec ns n ls n') (hf : NetFit P n') :
    NetFit P n ∧ ∃ t, NetInv ns o0 w0 (us ++ netOthers ls) n' (h ++ t) ∧ Direct ns n.obj n.world (netOthers ls) (t.map Ans.made) n'.obj n'.world := by
  induction he with
  | refl => exact ⟨hf, [], by rw [List.append_nil]; show NetInv _ _ _ (us ++ []) _ _; rw [List.append_nil]; exact hi, .nil⟩
  | step n1 n2 ls1 l he hs ih =>
    have hfr : ∀ i, Fresh (n1.cl i) := by
      clear ih hf hs
      induction he with
      | refl => exact fun i c hc => (hi.inv i).idle c hc
      | step _ _ _ l _ hs ih => exact (net_fresh ih hs).1
    have hf1 : NetFit P n1 := fun i c m hm => hf i c m ((net_fresh hfr hs).2 i c m hm)
    obtain ⟨h0, t, h1, h2⟩ := ih hf1
    obtain ⟨t', g1, g2⟩ := net_step hns h1 hf1 hs
    rw [show netOthers (ls1 ++ [l]) = netOthers ls1 ++ netOthers [l] from List.filterMap_append]
    exact ⟨h0, t ++ t', by rw [← List.append_assoc, ← List.append_assoc]; exact g1, by rw [List.map_append]; exact g2 _ _ _ _ h2⟩

theorem netInv_start (ns : NineServer (Ufs.State ω H)) (root : GoString) (w : ω) :
    NetInv ns (fun _ => newObj root) w [] (Net.start root w) [] :=
  ⟨fun _ => inv_init, fun _ => open_init, fun _ => rfl, fun _ => rfl, by simp, .nil, by simp⟩

/-- what the history says about the calls -/
theorem netInv_calls {ns : NineServer (Ufs.State ω H)} {o0 : Nat → Obj H} {w0 : ω} {us : List ω} {n : Net ω H} {h : List Ans} (hi : NetInv ns o0 w0 us n h) :
    ((h.map Ans.made).map fun e => (e.client, e.call)).Nodup ∧
    (∀ i, ((h.map Ans.made).filter fun e => e.client = i).map (fun e => e.call) <+: (n.cl i).written.map Prod.fst) ∧
    (∀ e ∈ h.map Ans.made, (n.cl e.client).phase e.call ≠ .idle ∧ (n.cl e.client).msg e.call = some e.msg) ∧
    ∀ i c b, (n.cl i).phase c = .done b → ∃ e ∈ h.map Ans.made, e.client = i ∧ e.call = c ∧ ∀ spare, callT e.msg spare b = asCall e.msg e.out := by
  refine ⟨?_, ?_, ?_, ?_⟩
  · have hnd : ∀ i, (((h.filter fun a => a.made.client = i).map Ans.replied).map Prod.fst).Nodup := by
      intro i
      rw [← hi.replied i]
      rw [List.nodup_iff_count]
      intro c
      have h2 := (hi.inv i).once c
      have h3 := (hi.inv i).calls c
      simp only [allCalls, flights, List.map_append, List.count_append] at h2 h3
      cases hp : (n.cl i).phase c <;> simp only [hp, Phase.w, Phase.d] at h2 h3 <;> omega
    rw [List.map_map]
    clear hi
    induction h with
    | nil => exact List.nodup_nil
    | cons a h ih =>
      rw [List.map_cons, List.nodup_cons]
      refine ⟨?_, ih ?_⟩
      · intro hm
        obtain ⟨a', ha', heq⟩ := List.mem_map.1 hm
        simp only [Function.comp_apply, Prod.mk.injEq] at heq
        have := hnd a.made.client
        rw [List.filter_cons_of_pos (by simp), List.map_cons, List.map_cons, List.nodup_cons] at this
        exact this.1 (List.mem_map.2 ⟨a'.replied, List.mem_map.2 ⟨a', List.mem_filter.2 ⟨ha', by simp [heq.1]⟩, rfl⟩, heq.2⟩)
      · intro i
        have := hnd i
        by_cases hai : a.made.client = i
        · rw [List.filter_cons_of_pos (by simp [hai]), List.map_cons, List.map_cons, List.nodup_cons] at this
          exact this.2
        · rw [List.filter_cons_of_neg (by simp [hai])] at this
          exact this
  · intro i
    rw [hi.fifo i, hi.replied i, List.map_append]
    refine ⟨_, congrArg (· ++ _) ?_⟩
    rw [List.filter_map, List.map_map, List.map_map, List.map_map]
    rfl
  · intro e he
    obtain ⟨a, ha, rfl⟩ := List.mem_map.1 he
    refine ⟨fun hid => ?_, hi.msg a ha⟩
    have := hi.msg a ha
    rw [(hi.inv _).idle _ hid] at this
    cases this
  · intro i c b hc
    obtain ⟨q, hq⟩ := (hi.inv i).done c b hc
    rw [hi.replied i] at hq
    obtain ⟨a, ha, heq⟩ := List.mem_map.1 hq
    obtain ⟨ha, hai⟩ := List.mem_filter.1 ha
    simp only [Ans.replied, Prod.mk.injEq] at heq
    refine ⟨a.made, List.mem_map.2 ⟨a, ha, rfl⟩, by simpa using hai, heq.1, fun spare => ?_⟩
    have hg := hi.good a ha
    rw [← heq.2.2]
    cases ho : a.made.out with
    | ok r =>
      rw [ho] at hg
      exact (C35_call_results a.made.msg spare a.tag).1 r hg.1 hg.2
    | error x =>
      rw [ho] at hg
      exact (C35_call_results a.made.msg spare a.tag).2 x hg

/-- **C89** Many clients share one file system.  Any number of clients, each with any number of concurrent callers,
each on a connection of its own to one file server process, with other processes using the same files: at any moment
`n` there is a list `h` of calls, each answered call once, such that calling the methods of the file servers of the
connections directly, one after the other, in this order, leads to the world and the file servers there are, and every
call that has returned got the outcome it has in the list.  Later, at `n'`, the list is `h` with calls `t` appended:
so whatever returned before `n` comes before whatever was made after `n`, whichever clients they belong to.  The calls of
each client are in the order in which their requests were written, and in between the other processes make the changes
that they make in the execution, no others. -/
theorem C89_one_order (P : TMsg → Prop) (ns : NineServer (Ufs.State ω H)) (hns : Modest P ns) (root : GoString) (w : ω) (n n' : Net ω H)
    (ls ls' : List (NetLabel ω)) (he : NetExec ns (Net.start root w) ls n) (he' : NetExec ns n ls' n') (hf : NetFit P n') :
    ∃ h t, Direct ns (fun _ => newObj root) w (netOthers ls) h n.obj n.world ∧ Direct ns n.obj n.world (netOthers ls') t n'.obj n'.world ∧
      ((h ++ t).map fun e => (e.client, e.call)).Nodup ∧
      (∀ i, ((h ++ t).filter fun e => e.client = i).map (fun e => e.call) <+: (n'.cl i).written.map Prod.fst) ∧
      (∀ e ∈ h, (n.cl e.client).phase e.call ≠ .idle) ∧
      (∀ e ∈ h ++ t, (n'.cl e.client).phase e.call ≠ .idle ∧ (n'.cl e.client).msg e.call = some e.msg) ∧
      (∀ i c b, (n.cl i).phase c = .done b → ∃ e ∈ h, e.client = i ∧ e.call = c ∧ ∀ spare, callT e.msg spare b = asCall e.msg e.out) ∧
      (∀ i c b, (n'.cl i).phase c = .done b → ∃ e ∈ h ++ t, e.client = i ∧ e.call = c ∧ ∀ spare, callT e.msg spare b = asCall e.msg e.out) := by
  have hi0 := netInv_start ns root w
  have hfn : NetFit P n := by
    have hfr : ∀ {a b : Net ω H} {ks : List (NetLabel ω)}, (∀ i, Fresh (a.cl i)) → NetExec ns a ks b → (∀ i, Fresh (b.cl i)) ∧
        ∀ i c m, (a.cl i).msg c = some m → (b.cl i).msg c = some m := by
      intro a b ks h0 h
      induction h with
      | refl => exact ⟨h0, fun _ _ _ hm => hm⟩
      | step _ _ _ l _ hs ih => exact ⟨(net_fresh ih.1 hs).1, fun i c m hm => (net_fresh ih.1 hs).2 i c m (ih.2 i c m hm)⟩
    exact fun i c m hm => hf i c m ((hfr (hfr (fun _ _ _ => rfl) he).1 he').2 i c m hm)
  obtain ⟨-, h, hi, -⟩ := net_exec hns hi0 he hfn
  rw [List.nil_append] at hi
  obtain ⟨-, t, hi', hd⟩ := net_exec hns hi he' hf
  have a := netInv_calls hi
  have b := netInv_calls hi'
  rw [List.map_append] at b
  exact ⟨h.map Ans.made, t.map Ans.made, hi.direct, hd, b.1, b.2.1, fun e he => (a.2.2.1 e he).1, b.2.2.1, a.2.2.2, b.2.2.2⟩

/-- the steps of client `i` that need no new call, and those of its server -/
def Own (i : Nat) : NetLabel ω → Prop
  | .client j l => j = i ∧ Internal l
  | .serve j => j = i
  | .other _ => False

/-- no new calls by client `i` -/
def NoCall (i : Nat) : NetLabel ω → Prop
  | .client j l => j = i → Internal l
  | _ => True

theorem net_work {ns : NineServer (Ufs.State ω H)} {i : Nat} {n n' : Net ω H} {l : NetLabel ω} (hl : NoCall i l) (hs : NetStep ns l n n') :
    work (n'.cl i) ≤ work (n.cl i) ∧ (Own i l → work (n'.cl i) < work (n.cl i)) := by
  cases hs with
  | other => exact ⟨Nat.le_refl _, fun h => h.elim⟩
  | client _ j l cl' hcl hal hst =>
    by_cases hj : j = i
    · subst hj
      have : work cl' < work (n.cl j) := work_step (hl rfl) hst
      dsimp only
      rw [upd_same]
      exact ⟨by omega, fun _ => this⟩
    · dsimp only
      rw [upd_other _ _ (Ne.symm hj)]
      exact ⟨Nat.le_refl _, fun h => absurd h.1 hj⟩
  | serve _ j c q y spare srv b hw hd =>
    by_cases hj : j = i
    · subst hj
      dsimp only
      rw [upd_same]
      have : work { n.cl j with
            wire := y
            fromNet := (n.cl j).fromNet ++ [{ owner := some c, bytes := b.bytes }]
            replied := (n.cl j).replied ++ [(c, q, b.bytes)] } < work (n.cl j) := by
        simp [work, hw]; omega
      exact ⟨Nat.le_of_lt this, fun _ => this⟩
    · dsimp only
      rw [upd_other _ _ (Ne.symm hj)]
      exact ⟨Nat.le_refl _, fun h => absurd h hj⟩

/-- **C89**, progress.  No client is kept from its answers by what the others do: as long as client `i` makes no new
calls it and its server make only finitely many steps, however long the others go on, and when none of these steps is
possible any more all calls of client `i` have returned. -/
theorem C89_calls_return (P : TMsg → Prop) (ns : NineServer (Ufs.State ω H)) (hns : Modest P ns) (hnp : ∀ m x, P m → Spec.call ns m x ≠ .panic)
    (root : GoString) (w : ω) (n : Net ω H) (ls0 : List (NetLabel ω)) (he : NetExec ns (Net.start root w) ls0 n) (hf : NetFit P n) (i : Nat) :
    (∀ (f : Nat → Net ω H) (ls : Nat → NetLabel ω), f 0 = n → (∀ k, NoCall i (ls k) ∧ NetStep ns (ls k) (f k) (f (k + 1))) →
      ∃ k0, ∀ k, k0 ≤ k → ¬ Own i (ls k)) ∧
    ((n.cl i).taken.length < 65534 → (∀ l n', Own i l → ¬ NetStep ns l n n') →
      ∀ c, (n.cl i).phase c ≠ .idle → ∃ b, (n.cl i).phase c = .done b) := by
  refine ⟨?_, ?_⟩
  · intro f ls _ hs
    have mono : ∀ k d, work ((f (k + d)).cl i) ≤ work ((f k).cl i) := by
      intro k d
      induction d with
      | zero => exact Nat.le_refl _
      | succ d ih => exact Nat.le_trans (net_work (hs (k + d)).1 (hs (k + d)).2).1 ih
    have key : ∀ v k, work ((f k).cl i) ≤ v → ∃ k0, ∀ k, k0 ≤ k → ¬ Own i (ls k) := by
      intro v
      induction v with
      | zero =>
        intro k hk
        refine ⟨k, fun j hj ho => ?_⟩
        have h1 := mono k (j - k)
        rw [Nat.add_sub_cancel' hj] at h1
        have h2 := (net_work (hs j).1 (hs j).2).2 ho
        omega
      | succ v ih =>
        intro k hk
        by_cases hex : ∃ j, k ≤ j ∧ Own i (ls j)
        · obtain ⟨j, hj, ho⟩ := hex
          have h1 := mono k (j - k)
          rw [Nat.add_sub_cancel' hj] at h1
          have h2 := (net_work (hs j).1 (hs j).2).2 ho
          exact ih (j + 1) (by omega)
        · exact ⟨k, fun j hj ho => hex ⟨j, hj, ho⟩⟩
    exact key _ 0 (Nat.le_refl _)
  · intro ht hno c hc
    obtain ⟨-, h, hi, -⟩ := net_exec hns (netInv_start ns root w) he hf
    have hstuck : Stuck (n.cl i) := by
      intro l s' hl hst
      by_cases hcl : ClientSide l
      · exact hno (.client i l) _ ⟨rfl, hl⟩ (NetStep.client n i l s' hcl (hi.open_ i).recv hst)
      · have hlr : l = .reply := by
          revert hl hcl
          cases l <;> simp [Internal, ClientSide]
        subst hlr
        have hne : (n.cl i).wire ≠ [] := by
          revert hst
          generalize n.cl i = s
          intro hst
          cases hst with | reply _ x y c q p h1 => simp [h1]
        match hw : (n.cl i).wire, hne with
        | (d, q) :: y, _ =>
          obtain ⟨m, t, -, hm, hq⟩ := (hi.inv i).wire (d, q) (by simp [hw])
          dsimp only at hm hq
          subst hq
          obtain ⟨hmP, hmf, hml⟩ := hf i d m hm
          obtain ⟨-, h2, h3⟩ := packet_framing m t (hml t)
          cases hd : dispatch ns ⟨(n.obj i).into n.world, true⟩ ⟨[], (m.packet t).drop 5, []⟩ ((m.packet t).getD 4 0) with
          | done srv' b => exact hno (.serve i) _ rfl (NetStep.serve n i d _ y [] srv' b hw hd)
          | panic =>
            rw [h2, h3, dispatch_request ns m _ _ (.inl rfl), (lawsT m).fwd hmf] at hd
            unfold handle at hd
            dsimp only at hd
            cases hcall : Spec.call ns m ((n.obj i).into n.world) with
            | panic => exact hnp _ _ hmP hcall
            | ok x r => simp [hcall] at hd
            | err x r => simp [hcall] at hd
    have hr : (n.cl i).recv = .idle := by
      rcases stuck_recv (hi.inv i) hstuck with h | h
      · exact h
      · exact absurd h (hi.open_ i).recv
    have hq := stuck_all (hi.inv i) hstuck hr (hi.open_ i).reader ht
    rcases quiet_calls (hi.inv i) hr hq c with h | h
    · exact absurd h hc
    · exact h

end Ninep.Client

namespace Ninep.Ufs
open Client Spec
variable {ω H : Type} {host : Host ω H} {user : GoString}

/-- **C89** for the Unix file server on any host whose names and error texts are short -/
theorem C89_ufs (hh : host.Short) (hu : user.length < 2 ^ 13) (root : GoString) (w : ω) (n n' : Net ω H)
    (ls ls' : List (NetLabel ω)) (he : NetExec (ufs host user) (Net.start root w) ls n) (he' : NetExec (ufs host user) n ls' n') (hf : NetFit Ordinary n') :
    ∃ h t, Direct (ufs host user) (fun _ => newObj root) w (netOthers ls) h n.obj n.world ∧
      Direct (ufs host user) n.obj n.world (netOthers ls') t n'.obj n'.world ∧
      ((h ++ t).map fun e => (e.client, e.call)).Nodup ∧
      (∀ i, ((h ++ t).filter fun e => e.client = i).map (fun e => e.call) <+: (n'.cl i).written.map Prod.fst) ∧
      (∀ e ∈ h, (n.cl e.client).phase e.call ≠ .idle) ∧
      (∀ e ∈ h ++ t, (n'.cl e.client).phase e.call ≠ .idle ∧ (n'.cl e.client).msg e.call = some e.msg) ∧
      (∀ i c b, (n.cl i).phase c = .done b → ∃ e ∈ h, e.client = i ∧ e.call = c ∧ ∀ spare, callT e.msg spare b = asCall e.msg e.out) ∧
      (∀ i c b, (n'.cl i).phase c = .done b → ∃ e ∈ h ++ t, e.client = i ∧ e.call = c ∧ ∀ spare, callT e.msg spare b = asCall e.msg e.out) :=
  C89_one_order Ordinary _ (ufs_modest hh hu) root w n n' ls ls' he he' hf

/-- **C89**, progress, for the Unix file server -/
theorem C89_ufs_returns (hh : host.Short) (hu : user.length < 2 ^ 13) (root : GoString) (w : ω) (n : Net ω H)
    (ls0 : List (NetLabel ω)) (he : NetExec (ufs host user) (Net.start root w) ls0 n) (hf : NetFit Ordinary n) (i : Nat) :
    (∀ (f : Nat → Net ω H) (ls : Nat → NetLabel ω), f 0 = n → (∀ k, NoCall i (ls k) ∧ NetStep (ufs host user) (ls k) (f k) (f (k + 1))) →
      ∃ k0, ∀ k, k0 ≤ k → ¬ Own i (ls k)) ∧
    ((n.cl i).taken.length < 65534 → (∀ l n', Own i l → ¬ NetStep (ufs host user) l n n') →
      ∀ c, (n.cl i).phase c ≠ .idle → ∃ b, (n.cl i).phase c = .done b) :=
  C89_calls_return Ordinary _ (ufs_modest hh hu) (fun m x hm => ufs_returns m x hm) root w n ls0 he hf i

/-! ### an instance -/

theorem dispatch_versioned {σ : Type} {ns : NineServer σ} {s s' : Server σ} {b b' : Buffer} {t : MType} (hv : s.Versioned = true)
    (h : dispatch ns s b t = .done s' b') : s'.Versioned = true := by
  by_cases hq : t.toNat ∈ requestTypes
  · obtain ⟨m, rfl⟩ := ty_of_mem hq
    rw [dispatch_request ns m s b (.inl hv)] at h
    obtain ⟨-, -, -, -, -, -, -, h, -⟩ := handle_done h
    exact h
  · have hne : ∀ n : MType, n.toNat ∈ requestTypes → t ≠ n := by
      rintro n hn rfl; exact hq hn
    unfold dispatch at h
    rw [if_neg (hne MT.Tversion (by decide)), if_neg (by rw [hv]; simp)] at h
    unfold dispatchTable at h
    rw [if_neg (hne MT.Tversion (by decide)), if_neg (hne MT.Tattach (by decide)),
      if_neg (hne MT.Tflush (by decide)), if_neg (hne MT.Twalk (by decide)), if_neg (hne MT.Topen (by decide)),
      if_neg (hne MT.Tcreate (by decide)), if_neg (hne MT.Tclunk (by decide)), if_neg (hne MT.Tstat (by decide)),
      if_neg (hne MT.Twstat (by decide)), if_neg (hne MT.Tremove (by decide)), if_neg (hne MT.Tread (by decide)),
      if_neg (hne MT.Twrite (by decide))] at h
    cases h
    exact hv

/-- an execution of one client and its server is an execution of all -/
theorem net_lift {ns : NineServer (State ω H)} {L : Label → Prop} {s s' : Sys (State ω H)} (he : SysExec ns L s s')
    (hv : s.srv.Versioned = true) (i : Nat) (n : Net ω H) (hc : n.cl i = s.cl) (ho : (n.obj i).into n.world = s.srv.ns) :
    s'.srv.Versioned = true ∧ ∃ ls n', NetExec ns n ls n' ∧ n'.cl i = s'.cl ∧ (n'.obj i).into n'.world = s'.srv.ns ∧
      ∀ j, j ≠ i → n'.cl j = n.cl j ∧ n'.obj j = n.obj j := by
  induction he with
  | refl => exact ⟨hv, [], n, .refl _, hc, ho, fun _ _ => ⟨rfl, rfl⟩⟩
  | step a b l _ _ hal hs ih =>
    obtain ⟨hv, ls, n1, h1, h2, h3, h4⟩ := ih
    cases hs with
    | client _ cl cl' srv hl hst =>
      dsimp only at h2 h3 hv hal
      subst h2
      exact ⟨hv, _, _, .step _ _ _ _ _ h1 (NetStep.client n1 i l cl' hl hal hst), upd_same _ _ _, h3, fun j hj => ⟨(upd_other _ _ hj).trans (h4 j hj).1, (h4 j hj).2⟩⟩
    | serve cl srv srv' c q y spare b hw hd =>
      dsimp only at h2 h3 hv hal
      subst h2
      have hsv : srv = ⟨(n1.obj i).into n1.world, true⟩ := by
        cases srv; cases hv; cases h3; rfl
      rw [hsv] at hd
      refine ⟨dispatch_versioned rfl hd, _, _, .step _ _ _ _ _ h1 (NetStep.serve n1 i c q y spare srv' b hw hd), upd_same _ _ _, ?_, fun j hj => ⟨(upd_other _ _ hj).trans (h4 j hj).1, (upd_other _ _ hj).trans (h4 j hj).2⟩⟩
      dsimp only
      rw [upd_same]
      rfl

/-- a new client attaches, and its call returns -/
theorem net_attach (w : Mem.World) (i : Nat) (n : Net Mem.World Nat) (hw : n.world = w) (hc : n.cl i = init) (ho : n.obj i = newObj [47, 120]) :
    ∃ ls n' b, NetExec (ufs Mem.shortHost (lit "harvey")) n ls n' ∧ (n'.cl i).phase 0 = .done b ∧
      CallsFit Ordinary (n'.cl i) ∧ ∀ j, j ≠ i → n'.cl j = n.cl j ∧ n'.obj j = n.obj j := by
  have hmod := ufs_modest (user := lit "harvey") Mem.shortHost_short (by decide)
  have e1 : SysExec (ufs Mem.shortHost (lit "harvey")) everything ⟨init, ⟨newFS [47, 120] w, true⟩⟩ ⟨_, _⟩ :=
    SysExec.step _ _ _ .call (SysExec.refl _) trivial (by simp [Alive, init])
      (SysStep.client .call init _ ⟨newFS [47, 120] w, true⟩ trivial
        (Step.call init 0 (.attach { SFID := 0, AFID := 0xFFFFFFFF }) rfl))
  have hf : CallsFit Ordinary { init with
      phase := upd init.phase 0 .sending
      sending := 0 :: init.sending
      msg := upd init.msg 0 (some (.attach { SFID := 0, AFID := 0xFFFFFFFF }))
      buf := upd init.buf 0 (encodeT {} 0 (.attach { SFID := 0, AFID := 0xFFFFFFFF })).bytes } := by
    intro c m hm
    by_cases h : c = 0
    · subst h
      simp [upd] at hm
      subst hm
      simp [Ordinary, TMsg.Fits, TMsg.packet, Spec.packet, TMsg.body, TMsg.fields, str]
    · simp [upd, h, init] at hm
  obtain ⟨s, h1, h2, h3, h4⟩ := sys_settles _ _ hmod _ _ _ rfl e1 hf
  have hfs : CallsFit Ordinary s.cl := by unfold CallsFit; rw [h2]; exact hf
  have hes := sysExec_trans e1 h1
  obtain ⟨b, hb⟩ := (C67_returns Mem.shortHost_short (by decide) [47, 120] w s hes hfs (by rw [h3]; simp [init])).2 h4 0 (by
    intro hid
    have := (fresh_exec (s := ⟨init, ⟨newFS [47, 120] w, true⟩⟩) (fun c _ => rfl) hes).1 0 hid
    rw [h2] at this
    simp [upd] at this)
  obtain ⟨-, ls, n', g1, g2, -, g4⟩ := net_lift hes rfl i n hc (by rw [ho, hw]; rfl)
  exact ⟨ls, n', b, g1, by rw [g2]; exact hb, by rw [g2]; exact hfs, g4⟩

/-- C89: two clients, both have attached -/
example : ∃ ls ls' n n' b b', NetExec (ufs Mem.shortHost (lit "harvey")) (Net.start [47, 120] Mem.world0) ls n ∧
    NetExec (ufs Mem.shortHost (lit "harvey")) n ls' n' ∧ NetFit Ordinary n' ∧
    (n.cl 0).phase 0 = .done b ∧ (n'.cl 1).phase 0 = .done b' := by
  obtain ⟨ls, n, b, h1, h2, h3, h4⟩ := net_attach _ 0 (Net.start [47, 120] Mem.world0) rfl rfl rfl
  obtain ⟨ls', n', b', g1, g2, g3, g4⟩ := net_attach _ 1 n rfl (h4 1 (by decide)).1 (h4 1 (by decide)).2
  refine ⟨ls, ls', n, n', b, b', h1, g1, ?_, h2, g2⟩
  intro i
  by_cases h : i = 1
  · subst h; exact g3
  · rw [(g4 i h).1]
    by_cases h' : i = 0
    · subst h'; exact h3
    · rw [(h4 i h').1]
      intro c m hm
      cases hm

end Ninep.Ufs
