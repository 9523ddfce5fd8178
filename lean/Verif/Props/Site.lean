import Verif.Client.Site
import Verif.Props.Bytes
import Verif.Props.BytesCut
import Verif.Props.Busy

set_option linter.unusedSimpArgs false
set_option linter.unusedVariables false

/-!
# The clients and the program as a whole (C96)
-/

namespace Ninep.Client
open Spec Ufs
variable {ω H : Type}

/-! ### what the theorems are about -/

/-- the calls of the operating system and what other processes do -/
def SiteLabel.outside : SiteLabel ω H → List (BLabel ω H)
  | .call i e => [.call i e]
  | .other w => [.other w]
  | _ => []

/-- the clients, the goroutines and the world, without the bytes under way -/
def Site.busy (n : Site ω H) : Busy ω H where
  cl i := (n.link i).w.packets.cl
  con i := { obj := (n.link i).w.srv.ns, running := (n.link i).running }
  world := n.world

/-- all calls made so far are ordinary and can be put on the wire, and the first request that a client has written is
that of a call of `CallTversion` -/
structure Site.Fine (n : Site ω H) : Prop where
  fit : ∀ i, CallsFit Ordinary (n.link i).w.cl
  hello : ∀ i c q m, (n.link i).w.cl.written.head? = some (c, q) → (n.link i).w.cl.msg c = some m → ∃ p, m = .version p

/-- no stream ends inside of a packet -/
def SiteLabel.Clean : SiteLabel ω H → Prop
  | .link _ l => NoTrunc l
  | _ => True

/-! ### one link -/

theorem framed_wire {σ : Type} {P : TMsg → Prop} {s : Wired σ} (h : Inv s.packets.cl) (hf : CallsFit P s.cl) :
    ∀ p ∈ s.cl.wire.map Prod.snd, p.length = pktLen p := by
  intro p hp
  obtain ⟨x, hx, rfl⟩ := List.mem_map.1 hp
  obtain ⟨m, t, -, hm, hq⟩ := h.wire x hx
  rw [hq]
  exact (packet_framing m t ((hf x.1 m hm).2.2 t)).1

theorem framed_net {σ : Type} {s : Wired σ} (h : Inv s.packets.cl) :
    ∀ p ∈ s.cl.fromNet.map Reply.bytes, p.length = pktLen p := by
  intro p hp
  obtain ⟨r, hr, rfl⟩ := List.mem_map.1 hp
  obtain ⟨c, q, -, hq⟩ := h.answered r (by simp only [replies, Wired.packets]; simp [hr])
  exact (h.replied _ hq).2.2

structure Streams {σ : Type} (s : Wired σ) : Prop where
  up : s.srvRd ≠ .stopped → Framed s.srvRd s.up s.upClosed (s.cl.wire.map Prod.snd)
  down : s.cl.reader ≠ .stopped → Framed s.clRd s.down s.downClosed (s.cl.fromNet.map Reply.bytes)

theorem sysStep_client {σ : Type} {ns : NineServer σ} {l : Label} {a b : Sys σ} (hl : ClientSide l) (hs : SysStep ns l a b) :
    Step true l a.cl b.cl := by
  cases hs with
  | client _ _ _ _ _ h => exact h
  | serve => exact hl.elim

/-- what a step of a link is in the system with packets -/
theorem link_step {σ : Type} {P : TMsg → Prop} {ns : NineServer σ} {l : WLabel} {s s' : Wired σ} (hi : Inv s.packets.cl) (ho : Open s.packets.cl)
    (hf : CallsFit P s.cl) (hst : Streams s) (hl : NoTrunc l) (hw : Waits s s') (hs : WStep ns l s s') :
    s'.srv = s.srv ∧ Streams s' ∧ s'.cl.replied = s.cl.replied ∧
      (s'.packets.cl = s.packets.cl ∨ ∃ l', ClientSide l' ∧ Step true l' s.packets.cl s'.packets.cl) := by
  have stop : ∀ {rd : Rd} {f : Bytes} {c : Bool} {ps : List Bytes}, Framed rd f c ps → Framed rd f true ps := by
    intro rd f c ps h
    rw [← List.append_nil f] at h
    exact h.cut
  cases hs with
  | srvBodyEOF => exact absurd rfl hl.2
  | clBodyEOF => exact absurd rfl hl.1
  | client _ l' cl' hr hcl hstep hwire hn =>
    refine ⟨rfl, ⟨?_, ?_⟩, ?_, ?_⟩
    · dsimp only; rw [hwire]; exact hst.up
    · dsimp only; rw [hn]
      intro hne
      exact hst.down fun he => hne (reader_stays hstep he)
    · dsimp only
      generalize s.cl = c at hstep
      cases hstep <;> first | exact hcl.elim | rfl
    · have hsv : Serving .client := trivial
      rcases fixed_client (ns := ns) ho.closed (fun y hy _ _ _ => (open_step hsv hi ho hy).recv) hr hcl hstep hwire hn with h | h
      · exact .inl (congrArg Sys.cl h)
      · exact .inr ⟨l', hcl, sysStep_client hcl h⟩
  | write _ c t hr hsend =>
    refine ⟨rfl, ⟨fun hne => ?_, hst.down⟩, rfl, .inr ⟨.client, trivial, ?_⟩⟩
    · have := (hst.up hne).push (s.cl.buf c)
      simpa [sentOff] using this
    · exact Step.write { s.cl with reader := fixReader s.cl.reader, recv := fixRecv s.cl.recv } c t hsend
  | writeFails _ c t x hr hsend hx =>
    refine ⟨rfl, ⟨fun hne => ?_, hst.down⟩, rfl, .inr ⟨.client, trivial, ?_⟩⟩
    · have := (hst.up hne).pushPart hx
      simpa [sentOff] using this
    · exact Step.write { s.cl with reader := fixReader s.cl.reader, recv := fixRecv s.cl.recv } c t hsend
  | srvHdr _ x r hrd hu hx =>
    refine ⟨rfl, ⟨fun _ => ?_, hst.down⟩, rfl, .inl rfl⟩
    have := hst.up (by rw [hrd]; simp)
    rw [hrd, hu] at this
    exact this.header hx
  | srvShort _ x r hrd hu h0 hx => exact ⟨rfl, ⟨fun hne => absurd rfl hne, fun hne => stop (hst.down hne)⟩, rfl, .inl rfl⟩
  | srvEnd _ hrd hu hc => exact ⟨rfl, ⟨fun hne => absurd rfl hne, fun hne => stop (hst.down hne)⟩, rfl, .inl rfl⟩
  | srvBody _ got x r n hrd hu h0 hx =>
    refine ⟨rfl, ⟨fun _ => ?_, hst.down⟩, rfl, .inl rfl⟩
    have := hst.up (by rw [hrd]; simp)
    rw [hrd, hu] at this
    exact this.more hx
  | srvBodyErr _ got n hrd hu hc => exact ⟨rfl, ⟨fun hne => absurd rfl hne, fun hne => stop (hst.down hne)⟩, rfl, .inl rfl⟩
  | serve _ got spare srv' b hrd hd => have := hw got hrd; cases this
  | serveFails _ got spare srv' b x hrd hd hx => have := hw got hrd; cases this
  | cutUp _ x y hu =>
    refine ⟨rfl, ⟨fun hne => ?_, hst.down⟩, rfl, .inl rfl⟩
    have := hst.up hne
    rw [hu] at this
    exact this.cut
  | cutDown _ x y hu =>
    refine ⟨rfl, ⟨hst.up, fun hne => ?_⟩, rfl, .inl rfl⟩
    have := hst.down hne
    rw [hu] at this
    exact this.cut
  | clHdr _ x r hr hidle hrd hu hx =>
    refine ⟨rfl, ⟨hst.up, fun hne => ?_⟩, rfl, .inl rfl⟩
    have := hst.down hne
    rw [hrd, hu] at this
    exact this.header hx
  | clShort _ x r hr hidle hrd hu h0 hx =>
    exact ⟨rfl, ⟨hst.up, fun hne => absurd rfl hne⟩, rfl, .inl (by simp [Wired.packets, hidle, fixReader])⟩
  | clEnd _ hr hidle hrd hu hc =>
    exact ⟨rfl, ⟨hst.up, fun hne => absurd rfl hne⟩, rfl, .inl (by simp [Wired.packets, hidle, fixReader])⟩
  | clBody _ got x r n hr hidle hrd hu h0 hx =>
    refine ⟨rfl, ⟨hst.up, fun hne => ?_⟩, rfl, .inl rfl⟩
    have := hst.down hne
    rw [hrd, hu] at this
    exact this.more hx
  | clBodyErr _ got n hr hidle hrd hu hc =>
    exact ⟨rfl, ⟨hst.up, fun hne => absurd rfl hne⟩, rfl, .inl (by simp [Wired.packets, hidle, fixReader])⟩
  | clDone _ got hr hidle hrd =>
    have hd := hst.down (by rw [hidle]; simp)
    rw [hrd] at hd
    obtain ⟨qs, h1, h2⟩ := hd.next (framed_net hi)
    match hwn : s.cl.fromNet, h1 with
    | ⟨o, q⟩ :: y, h1 =>
      simp only [List.map_cons, List.cons.injEq] at h1
      obtain ⟨rfl, rfl⟩ := h1
      refine ⟨rfl, ⟨hst.up, fun hne => ?_⟩, rfl, .inr ⟨.client, trivial, ?_⟩⟩
      · simpa [received, hwn] using h2
      · have := Step.read (trace := true) { s.cl with reader := fixReader s.cl.reader, recv := fixRecv s.cl.recv } ⟨o, q⟩ y
          (by simp [hidle, fixReader]) hwn
        simpa [Wired.packets, received, hwn, fixReader] using this

/-- the request that the server has read is the oldest one -/
theorem Streams.request {σ : Type} {P : TMsg → Prop} {s : Wired σ} (hst : Streams s) (hi : Inv s.packets.cl) (hf : CallsFit P s.cl) {got : Bytes}
    (hrd : s.srvRd = .body got 0) : ∃ c y, s.cl.wire = (c, got) :: y ∧ Framed .hdr s.up s.upClosed (y.map Prod.snd) := by
  have hu := hst.up (by rw [hrd]; simp)
  rw [hrd] at hu
  obtain ⟨qs, h1, h2⟩ := hu.next (framed_wire hi hf)
  match hw : s.cl.wire, h1 with
  | (c, q) :: y, h1 =>
    simp only [List.map_cons, List.cons.injEq] at h1
    obtain ⟨rfl, rfl⟩ := h1
    exact ⟨c, y, rfl, h2⟩

/-- a request that is run to its end after the negotiation leaves the connection negotiated -/
theorem finished_versioned {user : GoString} {m : TMsg} {t : Tag} {spare : Bytes} {obj o : Obj H} {v : Bool} {b : Buffer}
    {evs : List (Ev H)} (hf : m.Fits) (hl : (m.packet t).length < 2 ^ 32)
    (hp : Prog.Path (pdispatch user obj true ⟨[], (m.packet t).drop 5, spare⟩ ((m.packet t).getD 4 0)) evs (.ret (o, v, b))) : v = true := by
  have hrun := hp.replay rfl [] []
  rw [List.append_nil, List.nil_append] at hrun
  have hd : dispatch (ufs (scripted H) user) ⟨obj.into ⟨evs, []⟩, true⟩ ⟨[], (m.packet t).drop 5, spare⟩ ((m.packet t).getD 4 0) =
      .done ⟨o.into ⟨[], evs⟩, v⟩ b := by
    rw [run_dispatch, show (obj.into (⟨evs, []⟩ : Script H)).obj = obj from rfl,
      show (obj.into (⟨evs, []⟩ : Script H)).world = ⟨evs, []⟩ from rfl, hrun]
    rfl
  exact (serve_answer hf hl rfl hd).1

/-! ### all of them -/

structure LinkOK (l : Link H) : Prop where
  streams : Streams l.w
  busy : ∀ p, l.running = some p → ∃ got, l.w.srvRd = .body got 0
  versioned : l.w.srv.Versioned = true ∨ l.w.cl.replied = [] 

structure SiteInv (user root : GoString) (ls : List (BLabel ω H)) (n : Site ω H) (h : Nat → List (Deed H × Tag)) (cur : Nat → List (Ev H)) : Prop where
  inv : BInv user (newObj root) ls n.busy h cur
  link : ∀ i, LinkOK (n.link i)

theorem busy_setLink (n : Site ω H) (i : Nat) (l : Link H) :
    (n.setLink i l).busy = { n.busy with
      cl := upd n.busy.cl i l.w.packets.cl
      con := upd n.busy.con i { obj := l.w.srv.ns, running := l.running } } := by
  unfold Site.busy Site.setLink
  congr 1 <;> funext j <;> by_cases hj : j = i <;> simp [upd, hj]

theorem upd_id {α : Type} (f : Nat → α) (i : Nat) : upd f i (f i) = f := by
  funext j
  by_cases hj : j = i <;> simp [upd, hj]

theorem Site.Fine.bfit {n : Site ω H} (h : n.Fine) : BFit Ordinary n.busy := h.fit

/-- the calls of the operating system and what other processes do -/
def BLabel.outside : BLabel ω H → List (BLabel ω H)
  | .call i e => [.call i e]
  | .other w => [.other w]
  | _ => []

theorem outside_calls (i : Nat) (ls : List (BLabel ω H)) : hostCalls i (ls.flatMap BLabel.outside) = hostCalls i ls := by
  induction ls with
  | nil => rfl
  | cons l ls ih => cases l <;> simp only [List.flatMap_cons, BLabel.outside, List.nil_append, List.cons_append, hostCalls, ih]

/-- what the steps of the whole are when the bytes are left out -/
theorem site_busy {host : Host ω H} {user root : GoString} {ls : List (BLabel ω H)} {n n' : Site ω H} {l : SiteLabel ω H}
    {h : Nat → List (Deed H × Tag)} {cur : Nat → List (Ev H)} (hi : SiteInv user root ls n h cur) (hf : n.Fine)
    (hl : l.Clean) (hs : SiteStep host user l n n') :
    (∀ i, LinkOK (n'.link i)) ∧ ∃ bls, BExec host user n.busy bls n'.busy ∧ bls.flatMap BLabel.outside = l.outside := by
  have one {bl : BLabel ω H} {b : Busy ω H} (hb : BStep host user bl n.busy b) : BExec host user n.busy [bl] b := .step (.refl _) hb
  have links {i : Nat} {x : Link H} (hx : LinkOK x) : ∀ j, LinkOK ((n.setLink i x).link j) :=
    upd_all (fun (l : Link H) _ => LinkOK l) hx (fun j _ => hi.link j)
  -- the reply of a finished request
  have done {i : Nat} {o : Obj H} {v : Bool} {b : Buffer} (hr : (n.link i).running = some (.ret (o, v, b))) :
      ∃ c q y, (n.link i).w.cl.wire = (c, q) :: y ∧ Framed .hdr (n.link i).w.up (n.link i).w.upClosed (y.map Prod.snd) ∧ v = true ∧
        BStep host user (.reply i) n.busy { n.busy with
          cl := upd n.busy.cl i (answeredWith (n.busy.cl i) c q y b.bytes)
          con := upd n.busy.con i { obj := o } } := by
    obtain ⟨got, hg⟩ := (hi.link i).busy _ hr
    obtain ⟨c, y, hw, hu⟩ := (hi.link i).streams.request (hi.inv.inv i) (hf.fit i) hg
    obtain ⟨c', q', y', spare, hw', hp⟩ := hi.inv.now i _ hr
    have hw'' : (n.busy.cl i).wire = (c, got) :: y := hw
    rw [hw''] at hw'
    cases hw'
    obtain ⟨m, t, -, hm, hq⟩ := (hi.inv.inv i).wire (c, got) (by rw [hw'']; simp)
    dsimp only at hm hq
    subst hq
    obtain ⟨-, hmf, hml⟩ := hf.fit i c m hm
    exact ⟨c, m.packet t, y, hw, hu, finished_versioned hmf (hml t) hp, .reply n.busy i c _ y o v b hw'' hr⟩
  have packed {i : Nat} {c : Nat} {q b : Bytes} {y : List (Nat × Bytes)} (hw : (n.link i).w.cl.wire = (c, q) :: y) (w' : Wired (Obj H))
      (hc : w'.cl = answered (n.link i).w.cl b) : w'.packets.cl = answeredWith (n.busy.cl i) c q y b := by
    simp only [Wired.packets, hc, answered_cons hw]
    rfl
  cases hs with
  | link _ i ns l w' hst hw hex =>
    obtain ⟨h1, h2, h3, h4⟩ := link_step (hi.inv.inv i) (hi.inv.open_ i) (hf.fit i) (hi.link i).streams hl hw hst
    refine ⟨links ⟨h2, fun p hp => ?_, ?_⟩, ?_⟩
    · obtain ⟨got, hg⟩ := (hi.link i).busy p hp
      exact ⟨got, hw got hg⟩
    · dsimp only
      rw [h1, h3]
      exact (hi.link i).versioned
    · have hcon : upd n.busy.con i { obj := w'.srv.ns, running := (n.link i).running } = n.busy.con := by
        rw [h1]; exact upd_id n.busy.con i
      rw [busy_setLink]
      dsimp only
      rw [hcon]
      rcases h4 with h4 | ⟨l', hcl, h4⟩
      · rw [h4]
        refine ⟨[], ?_, rfl⟩
        rw [show upd n.busy.cl i (n.link i).w.packets.cl = n.busy.cl from upd_id n.busy.cl i]
        exact .refl _
      · exact ⟨_, one (.client n.busy i l' _ hcl (hi.inv.open_ i).recv h4), rfl⟩
  | start _ i got spare hex hr hg =>
    refine ⟨links ⟨(hi.link i).streams, fun p _ => ⟨got, hg⟩, (hi.link i).versioned⟩, [.start i], ?_, rfl⟩
    obtain ⟨c, y, hw, -⟩ := (hi.link i).streams.request (hi.inv.inv i) (hf.fit i) hg
    have hw' : (n.busy.cl i).wire = (c, got) :: y := hw
    have hv : pdispatch user (n.link i).w.srv.ns (n.link i).w.srv.Versioned ⟨[], got.drop 5, spare⟩ (got.getD 4 0) =
        pdispatch user (n.link i).w.srv.ns true ⟨[], got.drop 5, spare⟩ (got.getD 4 0) := by
      rcases (hi.link i).versioned with hv | hv
      · rw [hv]
      · obtain ⟨m, t, -, hm, hq⟩ := (hi.inv.inv i).wire (c, got) (by rw [hw']; simp)
        dsimp only at hm hq
        have hwr : (n.link i).w.cl.written = [] ++ (c, got) :: y := by
          have := hi.inv.fifo i
          rw [hw'] at this
          rw [show (n.busy.cl i).replied = [] from hv] at this
          exact this
        obtain ⟨p, hmp⟩ := hf.hello i c got m (by rw [hwr]; rfl) hm
        have hty : got.getD 4 0 = MT.Tversion := by
          rw [hq, (packet_framing m t ((hf.fit i c m hm).2.2 t)).2.1, hmp]
          rfl
        unfold pdispatch
        rw [if_pos hty, if_pos hty]
    rw [busy_setLink]
    dsimp only
    rw [hv, show upd n.busy.cl i (n.link i).w.packets.cl = n.busy.cl from upd_id n.busy.cl i]
    exact one (.start n.busy i c got y spare hw' hr)
  | call _ i x k hex hr =>
    refine ⟨links ⟨(hi.link i).streams, fun p _ => (hi.link i).busy _ hr, (hi.link i).versioned⟩, [.call i _], ?_, rfl⟩
    have := busy_setLink n i { n.link i with running := some (k (host.exec x n.world).2) }
    have hb : ({ n.setLink i { n.link i with running := some (k (host.exec x n.world).2) } with world := (host.exec x n.world).1 } : Site ω H).busy =
        { (n.setLink i { n.link i with running := some (k (host.exec x n.world).2) }).busy with world := (host.exec x n.world).1 } := rfl
    rw [hb, this]
    dsimp only
    rw [show upd n.busy.cl i (n.link i).w.packets.cl = n.busy.cl from upd_id n.busy.cl i]
    exact one (.call n.busy i x k hr)
  | reply _ i o v b hex hr =>
    obtain ⟨c, q, y, hw, hu, hv, hb⟩ := done hr
    refine ⟨links ⟨⟨fun _ => ?_, fun hne => ?_⟩, fun p hp => (by cases hp), .inl hv⟩, [.reply i], ?_, rfl⟩
    · simpa [answered_cons hw] using hu
    · have := ((hi.link i).streams.down (by rw [← (answered_msg (n.link i).w.cl b.bytes).2.2]; exact hne)).push b.bytes
      simpa [answered_cons hw] using this
    · rw [busy_setLink, packed hw _ rfl]
      exact one hb
  | replyFails _ i o v b x hex hr hx =>
    obtain ⟨c, q, y, hw, hu, hv, hb⟩ := done hr
    refine ⟨links ⟨⟨fun hne => absurd rfl hne, fun hne => ?_⟩, fun p hp => (by cases hp), .inl hv⟩, [.reply i], ?_, rfl⟩
    · have := ((hi.link i).streams.down (by rw [← (answered_msg (n.link i).w.cl b.bytes).2.2]; exact hne)).pushPart hx
      simpa [answered_cons hw] using this
    · rw [busy_setLink, packed hw _ rfl]
      exact one hb
  | panic _ i hex hr => exact ⟨hi.link, [], .refl _, rfl⟩
  | fatal _ => exact ⟨hi.link, [], .refl _, rfl⟩
  | other _ w => exact ⟨hi.link, [.other w], one (.other n.busy w), rfl⟩

/-! ### what a step cannot undo -/

/-- the client `b` is a later state of the client `a` -/
structure Later (a b : State) : Prop where
  msg : ∀ c m, a.msg c = some m → b.msg c = some m
  written : a.written <+: b.written

theorem Later.refl (a : State) : Later a a := ⟨fun _ _ h => h, List.prefix_refl _⟩

theorem Later.trans {a b c : State} (h : Later a b) (h' : Later b c) : Later a c :=
  ⟨fun k m hm => h'.msg k m (h.msg k m hm), h.written.trans h'.written⟩

theorem later_answered (cl : State) (b : Bytes) : Later cl (answered cl b) ∧ (answered cl b).phase = cl.phase := by
  unfold answered
  split <;> exact ⟨⟨fun _ _ h => h, List.prefix_refl _⟩, rfl⟩

theorem later_wired {σ : Type} {ns : NineServer σ} {s s' : Wired σ} {l : WLabel} (h : Fresh s.cl) (hs : WStep ns l s s') :
    Fresh s'.cl ∧ Later s.cl s'.cl := by
  refine ⟨(wired_fresh h hs).1, (wired_fresh h hs).2, ?_⟩
  cases hs with
  | client _ l' cl' hr hcl hst hw hn => exact written_prefix hcl hst
  | write => exact List.prefix_append _ _
  | writeFails => exact List.prefix_append _ _
  | serve _ got spare srv' b hrd hd => exact (later_answered s.cl b.bytes).1.written
  | serveFails _ got spare srv' b x hrd hd hx => exact (later_answered s.cl b.bytes).1.written
  | _ => exact List.prefix_refl _

theorem later_step {host : Host ω H} {user : GoString} {n n' : Site ω H} {l : SiteLabel ω H} (h : ∀ i, Fresh (n.link i).w.cl)
    (hs : SiteStep host user l n n') : (∀ i, Fresh (n'.link i).w.cl) ∧ ∀ i, Later (n.link i).w.cl (n'.link i).w.cl := by
  have set {i : Nat} {x : Link H} (h1 : Fresh x.w.cl) (h2 : Later (n.link i).w.cl x.w.cl) :
      (∀ j, Fresh ((n.setLink i x).link j).w.cl) ∧ ∀ j, Later (n.link j).w.cl ((n.setLink i x).link j).w.cl :=
    ⟨upd_all (fun (x : Link H) _ => Fresh x.w.cl) h1 (fun j _ => h j),
      upd_all (fun (x : Link H) j => Later (n.link j).w.cl x.w.cl) h2 (fun j _ => .refl _)⟩
  have ans {i : Nat} (b : Bytes) : Fresh (answered (n.link i).w.cl b) := by
    have h1 := answered_msg (n.link i).w.cl b
    unfold Fresh
    rw [h1.1, h1.2.1]
    exact h i
  cases hs with
  | link _ i ns l w' hst hw hex => exact set (later_wired (h i) hst).1 (later_wired (h i) hst).2
  | start => exact set (h _) (.refl _)
  | call => exact set (h _) (.refl _)
  | reply => exact set (ans _) (later_answered _ _).1
  | replyFails => exact set (ans _) (later_answered _ _).1
  | panic => exact ⟨h, fun _ => .refl _⟩
  | fatal => exact ⟨h, fun _ => .refl _⟩
  | other => exact ⟨h, fun _ => .refl _⟩

theorem Site.Fine.before {n n' : Site ω H} (h : n'.Fine) (hl : ∀ i, Later (n.link i).w.cl (n'.link i).w.cl) : n.Fine := by
  refine ⟨fun i c m hm => h.fit i c m ((hl i).msg c m hm), fun i c q m hq hm => ?_⟩
  obtain ⟨z, hz⟩ := (hl i).written
  exact h.hello i c q m (by rw [← hz, List.head?_append, hq]; rfl) ((hl i).msg c m hm)

theorem later_exec {host : Host ω H} {user : GoString} {n n' : Site ω H} {ls : List (SiteLabel ω H)} (h : ∀ i, Fresh (n.link i).w.cl)
    (he : SiteExec host user n ls n') : (∀ i, Fresh (n'.link i).w.cl) ∧ ∀ i, Later (n.link i).w.cl (n'.link i).w.cl := by
  induction he with
  | refl => exact ⟨h, fun _ => .refl _⟩
  | step _ hs ih => exact ⟨(later_step ih.1 hs).1, fun i => (ih.2 i).trans ((later_step ih.1 hs).2 i)⟩

/-- Everything that happens also happens when the bytes are left out. -/
theorem site_exec {host : Host ω H} (hh : host.Short) {user : GoString} (hu : user.length < 2 ^ 13) {root : GoString}
    {ls : List (BLabel ω H)} {n n' : Site ω H} {ls' : List (SiteLabel ω H)}
    {h : Nat → List (Deed H × Tag)} {cur : Nat → List (Ev H)} (hi : SiteInv user root ls n h cur)
    (he : SiteExec host user n ls' n') (hf : n'.Fine) (hl : ∀ l ∈ ls', l.Clean) :
    ∃ bls h' cur', BExec host user n.busy bls n'.busy ∧ bls.flatMap BLabel.outside = ls'.flatMap SiteLabel.outside ∧
      SiteInv user root (ls ++ bls) n' h' cur' := by
  have fresh0 : ∀ i, Fresh (n.link i).w.cl := fun i c hc => (hi.inv.inv i).idle c hc
  induction he with
  | refl => exact ⟨[], h, cur, .refl _, rfl, by rw [List.append_nil]; exact hi⟩
  | @step n1 n2 ls1 l he hs ih =>
    have hf1 : n1.Fine := hf.before (later_step (later_exec fresh0 he).1 hs).2
    obtain ⟨bls, h1, cur1, g1, g2, g3⟩ := ih hf1 (fun l hl' => hl l (by simp [hl']))
    obtain ⟨k1, bl, k2, k3⟩ := site_busy g3 hf1 (hl l (by simp)) hs
    obtain ⟨-, -, h2, cur2, k4, -⟩ := busy_exec hh hu g3.inv k2 hf.bfit
    exact ⟨bls ++ bl, h2, cur2, g1.trans k2, by simp [g2, k3], ⟨by rw [← List.append_assoc]; exact k4, k1⟩⟩

theorem site_start_busy (root : GoString) (w : ω) : (Site.start (H := H) root w).busy = Busy.start root w :=
  congrArg (fun f => (⟨f, fun _ => { obj := newObj root }, w⟩ : Busy ω H)) (funext fun _ => packets_id init nofun nofun)

theorem siteInv_start (user root : GoString) (w : ω) : SiteInv user root [] (Site.start (H := H) root w) (fun _ => []) (fun _ => []) := by
  have hb := site_start_busy (H := H) root w
  refine ⟨by rw [hb]; exact bInv_start user root w, fun i => ⟨?_, fun p hp => (by cases hp), .inr rfl⟩⟩
  have e3 : Framed .hdr [] false [] := ⟨by simp [Rd.got], fun _ => rfl, by simp⟩
  exact ⟨fun _ => e3, fun _ => e3⟩

theorem happened_outside {host : Host ω H} {w w' : ω} {ls : List (BLabel ω H)} (h : Happened host w ls w') :
    Happened host w (ls.flatMap BLabel.outside) w' := by
  induction h with
  | nil => exact .nil
  | call i x _ ih => simpa [List.flatMap_append, BLabel.outside] using Happened.call i x ih
  | other w2 _ ih => simpa [List.flatMap_append, BLabel.outside] using Happened.other w2 ih
  | client i l _ ih => simpa [List.flatMap_append, BLabel.outside] using ih
  | start i _ ih => simpa [List.flatMap_append, BLabel.outside] using ih
  | reply i _ ih => simpa [List.flatMap_append, BLabel.outside] using ih

theorem account_outside {user root : GoString} {ls : List (BLabel ω H)} {n : Busy ω H} {h : Nat → List (Deed H)} (ha : Account user root ls n h) :
    Account user root (ls.flatMap BLabel.outside) n h :=
  ⟨ha.played, fun i => by rw [outside_calls]; exact ha.calls i, ha.order, ha.once, ha.msg, ha.results⟩

/-! ### C96 -/

/-- **C96** Any number of clients of the program as a whole.  The packets are put together from bytes that arrive in any
pieces; connections break at any time; goroutines of the server and other processes run between any two calls of the
operating system; the process may end at any moment.  As long as no stream ends inside of a packet the clients
see what they would see if packets were carried as a whole: at any moment `n` (after the steps `ls`) and later at `n'`
(after the steps `ls'` more) there are accounts `h` and `h'` of the calls of each client, see `Account` and C93. -/
theorem C96_clients {host : Host ω H} (hh : host.Short) {user : GoString} (hu : user.length < 2 ^ 13) (root : GoString) (w : ω)
    (n n' : Site ω H) (ls ls' : List (SiteLabel ω H)) (he : SiteExec host user (Site.start root w) ls n) (he' : SiteExec host user n ls' n')
    (hf : n'.Fine) (hl : ∀ l ∈ ls ++ ls', l.Clean) :
    ∃ h h', Account user root (ls.flatMap SiteLabel.outside) n.busy h ∧ Account user root ((ls ++ ls').flatMap SiteLabel.outside) n'.busy h' ∧
      (∀ i, h i <+: h' i ∧ ∀ e ∈ h' i, (n.link i).w.cl.phase e.call = .idle →
        ∃ a b, h' i = a ++ e :: b ∧ (hostCalls i (ls.flatMap SiteLabel.outside)).length ≤ ((a.map Deed.evs).flatten).length) ∧
      Happened host w (ls.flatMap SiteLabel.outside) n.world ∧ Happened host w ((ls ++ ls').flatMap SiteLabel.outside) n'.world := by
  have hi := siteInv_start (H := H) user root w
  have hb := site_start_busy (H := H) root w
  have hfr := later_exec (fun i c hc => (hi.inv.inv i).idle c hc) he
  have hfn : n.Fine := hf.before (later_exec hfr.1 he').2
  obtain ⟨bl, h0, cur0, g1, g2, g3⟩ := site_exec hh hu hi he hfn (fun l hl' => hl l (by simp [hl']))
  obtain ⟨bl', h1, cur1, k1, k2, k3⟩ := site_exec hh hu g3 he' hf (fun l hl' => hl l (by simp [hl']))
  rw [hb] at g1
  obtain ⟨h, h', a1, a2, a3, a4, a5⟩ := C93_overlap hh hu root w n.busy n'.busy bl bl' g1 k1 hf.bfit
  have e1 : (bl ++ bl').flatMap BLabel.outside = (ls ++ ls').flatMap SiteLabel.outside := by simp [g2, k2]
  refine ⟨h, h', ?_, ?_, ?_, ?_, ?_⟩
  · rw [← g2]; exact account_outside a1
  · rw [← e1]; exact account_outside a2
  · rw [← g2]
    intro i
    rw [outside_calls]
    exact a3 i
  · rw [← g2]; exact happened_outside a4
  · rw [← e1]; exact happened_outside a5

/-! ### the process does not panic -/

theorem busy_calm {user : GoString} {o0 : Obj H} {ls : List (BLabel ω H)} {n : Busy ω H} {h : Nat → List (Deed H × Tag)} {cur : Nat → List (Ev H)}
    (hi : BInv user o0 ls n h cur) (hf : BFit Ordinary n) (i : Nat) : (n.con i).running ≠ some .panic := by
  intro hr
  obtain ⟨d, q, y, spare, hw, hp⟩ := hi.now i _ hr
  obtain ⟨m, t, -, hm, hq⟩ := (hi.inv i).wire (d, q) (by simp [hw])
  dsimp only at hm hq
  subst hq
  obtain ⟨hmP, hmf, hml⟩ := hf i d m hm
  obtain ⟨-, h2, h3⟩ := packet_framing m t (hml t)
  have hrun := hp.replay_panic rfl []
  have hd : dispatch (ufs (scripted H) user) ⟨(n.con i).obj.into ⟨cur i, []⟩, true⟩ ⟨[], (m.packet t).drop 5, spare⟩ ((m.packet t).getD 4 0) = .panic := by
    rw [run_dispatch, show ((n.con i).obj.into (⟨cur i, []⟩ : Script H)).obj = (n.con i).obj from rfl,
      show ((n.con i).obj.into (⟨cur i, []⟩ : Script H)).world = ⟨cur i, []⟩ from rfl, hrun]
    rfl
  rw [h2, h3, dispatch_request _ m _ _ (.inl rfl), (lawsT m).fwd hmf] at hd
  unfold handle at hd
  dsimp only at hd
  cases hcall : Spec.call (ufs (scripted H) user) m ((n.con i).obj.into ⟨cur i, []⟩) with
  | panic => exact ufs_returns _ _ hmP hcall
  | ok x r => simp [hcall] at hd
  | err x r => simp [hcall] at hd

/-- the facts about a site that has been reached from the start -/
theorem site_reached {host : Host ω H} (hh : host.Short) {user : GoString} (hu : user.length < 2 ^ 13) {root : GoString} {w : ω}
    {n : Site ω H} {ls : List (SiteLabel ω H)} (he : SiteExec host user (Site.start root w) ls n) (hf : n.Fine) (hl : ∀ l ∈ ls, l.Clean) :
    ∃ bls h cur, BExec host user (Busy.start root w) bls n.busy ∧ SiteInv user root bls n h cur := by
  obtain ⟨bl, h0, cur0, g1, -, g3⟩ := site_exec hh hu (siteInv_start user root w) he hf hl
  rw [site_start_busy] at g1
  exact ⟨bl, h0, cur0, g1, by rw [List.nil_append] at g3; exact g3⟩

/-- **C96** Clients of this kind do not crash the program: no request of theirs panics, so the process ends only when
`Serve` returns. -/
theorem C96_alive {host : Host ω H} (hh : host.Short) {user : GoString} (hu : user.length < 2 ^ 13) (root : GoString) (w : ω)
    (n : Site ω H) (ls : List (SiteLabel ω H)) (he : SiteExec host user (Site.start root w) ls n) (hf : n.Fine) (hl : ∀ l ∈ ls, l.Clean) :
    (∀ i, (n.link i).running ≠ some .panic) ∧ (n.exit = true → SiteLabel.fatal ∈ ls) := by
  have calm {n : Site ω H} {ls : List (SiteLabel ω H)} (he : SiteExec host user (Site.start root w) ls n) (hf : n.Fine)
      (hl : ∀ l ∈ ls, l.Clean) (i : Nat) : (n.link i).running ≠ some .panic := by
    obtain ⟨bl, h0, cur0, -, g3⟩ := site_reached hh hu he hf hl
    exact busy_calm g3.inv hf.bfit i
  refine ⟨calm he hf hl, ?_⟩
  have hfr : ∀ i, Fresh ((Site.start (H := H) root w).link i).w.cl := fun _ _ _ => rfl
  generalize hs0 : Site.start (H := H) root w = s0 at he hfr
  induction he with
  | refl => subst hs0; intro h; cases h
  | @step n1 n2 ls1 l he hs ih =>
    subst hs0
    have hf1 : n1.Fine := hf.before (later_step (later_exec hfr he).1 hs).2
    have hl1 : ∀ l ∈ ls1, l.Clean := fun l hl' => hl l (by simp [hl'])
    have := ih hf1 hl1
    intro hex
    cases hs with
    | panic _ i _ hr => exact absurd hr (calm he hf1 hl1 i)
    | fatal => simp
    | _ => exact List.mem_append_left _ (this hex)

/-! ### progress -/

/-- the connection of client `i` does not break, and every header arrives in one piece -/
def SiteLabel.Smooth (i : Nat) : SiteLabel ω H → Prop
  | .link j l => j = i → Client.Smooth l
  | .reply j written => j = i → written = true
  | _ => True

/-- no new calls by client `i`, and its connection does not break -/
def SiteLabel.Settling (i : Nat) : SiteLabel ω H → Prop
  | .link j l => j = i → wSettling l
  | .reply j written => j = i → written = true
  | _ => True

/-- steps of client `i`, of its connection and of its goroutine -/
def SiteLabel.Own (i : Nat) : SiteLabel ω H → Prop
  | .link j l => j = i ∧ wSettling l
  | .start j => j = i
  | .call j _ => j = i
  | .reply j written => j = i ∧ written = true
  | _ => False

/-- nothing is wrong with client and connection -/
structure Sound {σ : Type} (s : Wired σ) : Prop where
  open_ : WOpen s
  recv : s.cl.recv ≠ .panicked

theorem Sound.packets {σ : Type} {s : Wired σ} (h : Sound s) : s.packets.cl = s.cl := packets_id _ h.open_.reader h.recv

theorem sound_link {σ : Type} {ns : NineServer σ} {l : WLabel} {s s' : Wired σ} (hi : Inv s.packets.cl) (ho : Open s.packets.cl)
    (h : Sound s) (hl : Smooth l) (hw : Waits s s') (hs : WStep ns l s s') : Sound s' := by
  refine ⟨wopen_step h.open_ hl hs, ?_⟩
  cases hs with
  | client _ l' cl' hr hcl hstep hwire hn =>
    rw [h.packets] at hi ho
    have hsv : Serving l' := by cases l' <;> simp [ClientSide, Serving] at hcl ⊢
    exact (open_step hsv hi ho hstep).recv
  | serve _ got spare srv' b hrd hd => have := hw got hrd; cases this
  | serveFails => exact hl.elim
  | _ => exact h.recv

theorem answered_open (cl : State) (b : Bytes) : (answered cl b).reader = cl.reader ∧ (answered cl b).recv = cl.recv ∧
    (answered cl b).closed = cl.closed := by
  unfold answered
  split <;> exact ⟨rfl, rfl, rfl⟩

theorem sound_step {host : Host ω H} {user root : GoString} {ls : List (BLabel ω H)} {n n' : Site ω H} {l : SiteLabel ω H}
    {h : Nat → List (Deed H × Tag)} {cur : Nat → List (Ev H)} (hi : SiteInv user root ls n h cur) (i : Nat) (hn : Sound (n.link i).w)
    (hl : l.Smooth i) (hs : SiteStep host user l n n') : Sound (n'.link i).w := by
  have set {j : Nat} {x : Link H} (h1 : j = i → Sound x.w) : Sound ((n.setLink j x).link i).w := by
    unfold Site.setLink
    by_cases hj : i = j
    · subst hj; dsimp only; rw [upd_same]; exact h1 rfl
    · dsimp only; rw [upd_other _ _ hj]; exact hn
  cases hs with
  | link _ j ns l w' hst hw hex =>
    refine set fun hj => ?_
    subst hj
    exact sound_link (hi.inv.inv j) (hi.inv.open_ j) hn (hl rfl) hw hst
  | start => exact set fun hj => by subst hj; exact hn
  | call => exact set fun hj => by subst hj; exact hn
  | reply _ j o v b hex hr =>
    refine set fun hj => ?_
    subst hj
    obtain ⟨h1, h2, h3⟩ := answered_open (n.link j).w.cl b.bytes
    refine ⟨⟨hn.open_.upClosed, hn.open_.downClosed, by simp, hn.open_.clRd, ?_, ?_, hn.open_.exited⟩, ?_⟩
    · dsimp only; rw [h1]; exact hn.open_.reader
    · dsimp only; rw [h3]; exact hn.open_.closed
    · dsimp only; rw [h2]; exact hn.recv
  | replyFails _ j o v b x hex hr hx => exact set fun hj => by have := hl hj; cases this
  | panic => exact hn
  | fatal => exact hn
  | other => exact hn

theorem sound_exec {host : Host ω H} (hh : host.Short) {user : GoString} (hu : user.length < 2 ^ 13) {root : GoString} {w : ω}
    {n : Site ω H} {ls : List (SiteLabel ω H)} (he : SiteExec host user (Site.start root w) ls n) (hf : n.Fine) (hl : ∀ l ∈ ls, l.Clean)
    (i : Nat) (hsm : ∀ l ∈ ls, l.Smooth i) : Sound (n.link i).w := by
  have hfr : ∀ i, Fresh ((Site.start (H := H) root w).link i).w.cl := fun _ _ _ => rfl
  generalize hs0 : Site.start (H := H) root w = s0 at he hfr
  induction he with
  | refl => subst hs0; exact ⟨⟨rfl, rfl, nofun, nofun, nofun, rfl, rfl⟩, nofun⟩
  | @step n1 n2 ls1 l he hs ih =>
    subst hs0
    have hf1 : n1.Fine := hf.before (later_step (later_exec hfr he).1 hs).2
    have hl1 : ∀ l ∈ ls1, l.Clean := fun l hl' => hl l (by simp [hl'])
    obtain ⟨bl, h0, cur0, -, g3⟩ := site_reached hh hu he hf1 hl1
    exact sound_step g3 i (ih hf1 hl1 (fun l hl' => hsm l (by simp [hl']))) (hsm l (by simp)) hs

/-- what a step means for client `i` -/
theorem site_work {host : Host ω H} {user root : GoString} {ls : List (BLabel ω H)} {n n' : Site ω H} {l : SiteLabel ω H}
    {h : Nat → List (Deed H × Tag)} {cur : Nat → List (Ev H)} (hi : SiteInv user root ls n h cur) {i : Nat}
    (hl : l.Settling i) (hs : SiteStep host user l n n') :
    (¬ l.Own i → n'.link i = n.link i) ∧
    (l.Own i → Prod.Lex (· < ·) (· < ·) (work (n'.link i).w.cl, (n'.link i).w.inFlight) (work (n.link i).w.cl, (n.link i).w.inFlight) ∨
      (n'.link i).w = (n.link i).w ∧
      (((n.link i).running = none ∧ ∃ p, (n'.link i).running = some p) ∨
       ∃ x k a, (n.link i).running = some (.call x k) ∧ (n'.link i).running = some (k a))) := by
  have other {j : Nat} {x : Link H} (hj : j ≠ i) : (n.setLink j x).link i = n.link i := upd_other _ _ (Ne.symm hj)
  have self {x : Link H} : (n.setLink i x).link i = x := upd_same _ _ _
  cases hs with
  | link _ j ns l w' hst hw hex =>
    by_cases hj : j = i
    · subst hj
      have hset := hl rfl
      refine ⟨fun h => absurd ⟨rfl, hset⟩ h, fun _ => .inl ?_⟩
      rw [self]
      dsimp only
      cases hst with
      | client _ l' cl' hr hcl hstep hwire hn => exact .left _ _ (work_step hset hstep)
      | write _ c t hr hsend =>
        exact .left _ _ (work_step (l := .client) trivial (Step.write (trace := true) (n.link j).w.cl c t hsend))
      | clDone _ got hr hidle hrd =>
        have hd := (hi.link j).streams.down (by rw [hidle]; simp)
        rw [hrd] at hd
        obtain ⟨qs, h1, h2⟩ := hd.next (framed_net (hi.inv.inv j))
        match hwn : (n.link j).w.cl.fromNet, h1 with
        | ⟨o, q⟩ :: y, h1 =>
          simp only [List.map_cons, List.cons.injEq] at h1
          obtain ⟨rfl, rfl⟩ := h1
          have := work_step (l := .client) trivial (Step.read (trace := true) (n.link j).w.cl ⟨o, q⟩ y hidle hwn)
          refine .left _ _ ?_
          simpa [received, hwn] using this
      | serve _ got spare srv' b hrd hd => have := hw got hrd; cases this
      | srvHdr _ x r h1 h2 h3 => exact .right _ (by simp [Wired.inFlight, h2]; omega)
      | srvBody _ got x r n h1 h2 h3 h4 => exact .right _ (by simp [Wired.inFlight, h2]; omega)
      | clHdr _ x r h0 hi h1 h2 h3 => exact .right _ (by simp [Wired.inFlight, h2]; omega)
      | clBody _ got x r n h0 hi h1 h2 h3 h4 => exact .right _ (by simp [Wired.inFlight, h2]; omega)
      | writeFails | srvShort | srvEnd | srvBodyErr | srvBodyEOF | serveFails | cutUp | cutDown | clShort | clEnd | clBodyErr | clBodyEOF =>
        exact hset.elim
    · exact ⟨fun _ => other hj, fun h => absurd h.1 hj⟩
  | start _ j got spare hex hr hg =>
    by_cases hj : j = i
    · subst hj
      exact ⟨fun h => absurd rfl h, fun _ => .inr (by rw [self]; exact ⟨rfl, .inl ⟨hr, _, rfl⟩⟩)⟩
    · exact ⟨fun _ => other hj, fun h => absurd h hj⟩
  | call _ j x k hex hr =>
    by_cases hj : j = i
    · subst hj
      refine ⟨fun h => absurd rfl h, fun _ => .inr ?_⟩
      dsimp only
      rw [self]
      exact ⟨rfl, .inr ⟨x, k, _, hr, rfl⟩⟩
    · exact ⟨fun _ => other hj, fun h => absurd h hj⟩
  | reply _ j o v b hex hr =>
    by_cases hj : j = i
    · subst hj
      refine ⟨fun h => absurd ⟨rfl, rfl⟩ h, fun _ => .inl ?_⟩
      rw [self]
      obtain ⟨c, q, y, spare, hw, -⟩ := hi.inv.now j _ hr
      have hw' : (n.link j).w.cl.wire = (c, q) :: y := hw
      refine .left _ _ ?_
      dsimp only
      rw [answered_cons hw']
      simp [work, hw']
      omega
    · exact ⟨fun _ => other hj, fun h => absurd h.1 hj⟩
  | replyFails _ j o v b x hex hr hx =>
    by_cases hj : j = i
    · have := hl hj; cases this
    · exact ⟨fun _ => other hj, fun h => absurd h.1 hj⟩
  | panic => exact ⟨fun _ => rfl, fun h => h.elim⟩
  | fatal => exact ⟨fun _ => rfl, fun h => h.elim⟩
  | other => exact ⟨fun _ => rfl, fun h => h.elim⟩

/-- **C96**, progress.  Client `i` and its connection: as long as the connection does not break and the client makes no
new calls, the client, the connection and the goroutine of the server make only finitely many steps, however long the
others go on, break down, or are slow.  When none of these steps is possible any more, and the process is still there,
all calls of client `i` have returned. -/
theorem C96_returns {host : Host ω H} (hh : host.Short) {user : GoString} (hu : user.length < 2 ^ 13) (root : GoString) (w : ω)
    (n : Site ω H) (ls : List (SiteLabel ω H)) (he : SiteExec host user (Site.start root w) ls n) (hf : n.Fine) (hl : ∀ l ∈ ls, l.Clean) (i : Nat) :
    (∀ (f : Nat → Site ω H) (lb : Nat → SiteLabel ω H), f 0 = n →
      (∀ k, (f k).Fine ∧ (lb k).Clean ∧ (lb k).Settling i ∧ SiteStep host user (lb k) (f k) (f (k + 1))) →
      ∃ k0, ∀ k, k0 ≤ k → ¬ (lb k).Own i) ∧
    ((∀ l ∈ ls, l.Smooth i) → n.exit = false → (n.link i).w.cl.taken.length < 65534 →
      (∀ l n', l.Own i → ¬ SiteStep host user l n n') →
      ∀ c, (n.link i).w.cl.phase c ≠ .idle → ∃ b, (n.link i).w.cl.phase c = .done b) := by
  obtain ⟨bl, h0, cur0, hb, hi⟩ := site_reached hh hu he hf hl
  refine ⟨?_, ?_⟩
  · intro f lb h0f hs
    have hinv : ∀ k, ∃ bls h cur, SiteInv user root bls (f k) h cur := by
      intro k
      induction k with
      | zero => rw [h0f]; exact ⟨_, _, _, hi⟩
      | succ k ih =>
        obtain ⟨bls, h, cur, ih⟩ := ih
        obtain ⟨a, h', cur', -, -, g⟩ := site_exec hh hu ih (.step (.refl _) (hs k).2.2.2) (hs (k + 1)).1
          (by intro l hl'; simp at hl'; subst hl'; exact (hs k).2.1)
        exact ⟨_, _, _, g⟩
    have hwork : ∀ k, (¬ (lb k).Own i → (f (k + 1)).link i = (f k).link i) ∧
        ((lb k).Own i → Prod.Lex (· < ·) (· < ·) (work ((f (k + 1)).link i).w.cl, ((f (k + 1)).link i).w.inFlight) (work ((f k).link i).w.cl, ((f k).link i).w.inFlight) ∨
          ((f (k + 1)).link i).w = ((f k).link i).w ∧
          ((((f k).link i).running = none ∧ ∃ p, ((f (k + 1)).link i).running = some p) ∨
           ∃ x q a, ((f k).link i).running = some (.call x q) ∧ ((f (k + 1)).link i).running = some (q a))) := by
      intro k
      obtain ⟨bls, h, cur, hk⟩ := hinv k
      exact site_work hk (hs k).2.2.1 (hs k).2.2.2
    have still : ∀ k d, (∀ x, k ≤ x → x < k + d → ¬ (lb x).Own i) → (f (k + d)).link i = (f k).link i := by
      intro k d
      induction d with
      | zero => exact fun _ => rfl
      | succ d ih =>
        intro h
        exact ((hwork (k + d)).1 (h (k + d) (by omega) (by omega))).trans (ih fun x a b => h x a (by omega))
    have next : ∀ k, (∃ k0, ∀ k, k0 ≤ k → ¬ (lb k).Own i) ∨ ∃ j, k ≤ j ∧ (f j).link i = (f k).link i ∧ (lb j).Own i := by
      intro k
      by_cases hex : ∃ j, k ≤ j ∧ (lb j).Own i
      · obtain ⟨j, h1, h2, h3⟩ := first_such hex
        have := still k (j - k) (fun x a b => h3 x a (by omega))
        rw [Nat.add_sub_cancel' h1] at this
        exact .inr ⟨j, h1, this, h2⟩
      · exact .inl ⟨k, fun j hj ho => hex ⟨j, hj, ho⟩⟩
    have hwf : WellFounded (Prod.Lex (α := Nat) (β := Nat) (· < ·) (· < ·)) := (Prod.lex Nat.lt_wfRel Nat.lt_wfRel).wf
    have key : ∀ v : Nat × Nat, ∀ k, v = (work ((f k).link i).w.cl, ((f k).link i).w.inFlight) → ∃ k0, ∀ k, k0 ≤ k → ¬ (lb k).Own i := by
      intro v
      induction v using hwf.induction with
      | h v ih =>
        have hsome : ∀ p k, v = (work ((f k).link i).w.cl, ((f k).link i).w.inFlight) → ((f k).link i).running = some p →
            ∃ k0, ∀ k, k0 ≤ k → ¬ (lb k).Own i := by
          intro p
          induction p with
          | ret a =>
            intro k hk hr
            rcases next k with h | ⟨j, h1, h2, h4⟩
            · exact h
            · rcases (hwork j).2 h4 with h | ⟨-, h | ⟨x, q, a, h, -⟩⟩
              · exact ih _ (by rw [h2, ← hk] at h; exact h) (j + 1) rfl
              · rw [h2, hr] at h; cases h.1
              · rw [h2, hr] at h; cases h
          | panic =>
            intro k hk hr
            rcases next k with h | ⟨j, h1, h2, h4⟩
            · exact h
            · rcases (hwork j).2 h4 with h | ⟨-, h | ⟨x, q, a, h, -⟩⟩
              · exact ih _ (by rw [h2, ← hk] at h; exact h) (j + 1) rfl
              · rw [h2, hr] at h; cases h.1
              · rw [h2, hr] at h; cases h
          | call x q ihp =>
            intro k hk hr
            rcases next k with h | ⟨j, h1, h2, h4⟩
            · exact h
            · rcases (hwork j).2 h4 with h | ⟨hw, h | ⟨x', q', a, h, h'⟩⟩
              · exact ih _ (by rw [h2, ← hk] at h; exact h) (j + 1) rfl
              · rw [h2, hr] at h; cases h.1
              · rw [h2, hr] at h
                cases h
                exact ihp a (j + 1) (by rw [hw, h2]; exact hk) h'
        intro k hk
        cases hr : ((f k).link i).running with
        | some p => exact hsome p k hk hr
        | none =>
          rcases next k with h | ⟨j, h1, h2, h4⟩
          · exact h
          · rcases (hwork j).2 h4 with h | ⟨hw, ⟨-, p, hp⟩ | ⟨x, q, a, h, -⟩⟩
            · exact ih _ (by rw [h2, ← hk] at h; exact h) (j + 1) rfl
            · exact hsome p (j + 1) (by rw [hw, h2]; exact hk) hp
            · rw [h2, hr] at h; cases h
    exact key _ 0 rfl
  · intro hsm hex ht hno
    have hsound := sound_exec hh hu he hf hl i hsm
    have ho := hsound.open_
    have hrun : (n.link i).w.Running := ⟨hsound.recv, ho.exited⟩
    have hpk : n.busy.cl i = (n.link i).w.cl := hsound.packets
    -- steps that are possible
    have link {l : WLabel} {w' : Wired (Obj H)} (ns : NineServer (Obj H)) (hset : wSettling l) (hst : WStep ns l (n.link i).w w')
        (hw : Waits (n.link i).w w') : False :=
      hno (.link i l) _ ⟨rfl, hset⟩ (.link n i ns l w' hst hw (fun h => by rw [hex] at h; cases h))
    let ns : NineServer (Obj H) := ⟨fun _ _ s => .err s [], fun _ _ _ _ s => .err s [], fun _ _ _ s => .err s [], fun _ _ s => .err s [],
      fun _ _ _ _ s => .err s [], fun _ s => .err s [], fun _ _ s => .err s [], fun _ s => .err s [], fun _ s => .err s [],
      fun _ _ _ s => .err s [], fun _ _ _ s => .err s [], fun _ s => .err s []⟩
    have := (C93_returns hh hu root w n.busy bl hb hf.bfit i).2 (by rw [hpk]; exact ht)
    rw [hpk] at this
    refine this ?_
    intro bl n' hown hst
    cases hst with
    | other => exact hown
    | call _ j x k hr =>
      have hj : j = i := hown
      subst hj
      exact hno (.call j _) _ rfl (.call n j x k hex hr)
    | reply _ j c q y o v b hw hr =>
      have hj : j = i := hown
      subst hj
      exact hno (.reply j true) _ ⟨rfl, rfl⟩ (.reply n j o v b hex hr)
    | start _ j c q y spare hw hr =>
      have hj : j = i := hown
      subst hj
      have hu := (hi.link j).streams.up ho.srvRd
      rw [ho.upClosed] at hu
      rw [hpk] at hw
      rcases hu.ready (framed_wire (hi.inv.inv j) (hf.fit j)) (by simp [hw]) ho.srvRd with ⟨h1, h2⟩ | ⟨got, h1⟩ | ⟨got, k, h1, h2⟩
      · exact link (l := .io) ns trivial (.srvHdr _ ((n.link j).w.up.take 7) ((n.link j).w.up.drop 7) h1 (by simp) (by simp; omega)) (fun got hg => by rw [h1] at hg; cases hg)
      · exact hno (.start j) _ rfl (.start n j got spare hex hr h1)
      · exact link (l := .io) ns trivial (.srvBody _ got ((n.link j).w.up.take 1) ((n.link j).w.up.drop 1) (k + 1) h1 (List.take_append_drop 1 _).symm (by simp; omega)
          (by simp; omega)) (fun got hg => by rw [h1] at hg; cases hg)
    | client _ j l cl' hcl hal hst =>
      obtain ⟨hj, hint⟩ : j = i ∧ Internal l := hown
      subst hj
      rw [hpk] at hst
      by_cases hw : cl'.wire = (n.link j).w.cl.wire
      · by_cases hn : cl'.fromNet = (n.link j).w.cl.fromNet
        · exact link (l := .step l) ns hint (.client _ l cl' hrun hcl hst hw hn) (fun _ h => h)
        · have hrd : (n.link j).w.cl.reader = .idle ∧ (n.link j).w.cl.fromNet ≠ [] := by
            revert hst hn hw
            generalize (n.link j).w.cl = s
            intro hst hw hn
            cases hst <;> first | exact hcl.elim | exact absurd rfl hn | skip
            rename_i h1 h2
            exact ⟨h1, by simp [h2]⟩
          have hd := (hi.link j).streams.down ho.reader
          rw [ho.downClosed] at hd
          rcases hd.ready (framed_net (hi.inv.inv j)) (by simp [hrd.2]) ho.clRd with ⟨h1, h2⟩ | ⟨got, h1⟩ | ⟨got, k, h1, h2⟩
          · exact link (l := .io) ns trivial (.clHdr _ ((n.link j).w.down.take 7) ((n.link j).w.down.drop 7) hrun hrd.1 h1 (by simp) (by simp; omega)) (fun _ h => h)
          · exact link (l := .step .client) ns trivial (.clDone _ got hrun hrd.1 h1) (fun _ h => h)
          · exact link (l := .io) ns trivial (.clBody _ got ((n.link j).w.down.take 1) ((n.link j).w.down.drop 1) (k + 1) hrun hrd.1 h1 (List.take_append_drop 1 _).symm
              (by simp; omega) (by simp; omega)) (fun _ h => h)
      · have hsd : ∃ c t, (n.link j).w.cl.sender = .stored c t := by
          revert hst hw
          generalize (n.link j).w.cl = s
          intro hst hw
          cases hst <;> first | exact hcl.elim | exact absurd rfl hw | skip
          rename_i h1
          exact ⟨_, _, h1⟩
        obtain ⟨c, t, hs⟩ := hsd
        exact link (l := .step .client) ns trivial (.write _ c t hrun hs) (fun _ h => h)

/-! ### an execution -/

/-- a file server that is never called -/
def idleNS (σ : Type) : NineServer σ where
  Rversion _ _ _ := .panic
  Rattach _ _ _ _ _ := .panic
  Rwalk _ _ _ _ := .panic
  Ropen _ _ _ := .panic
  Rcreate _ _ _ _ _ := .panic
  Rstat _ _ := .panic
  Rwstat _ _ _ := .panic
  Rclunk _ _ := .panic
  Rremove _ _ := .panic
  Rread _ _ _ _ := .panic
  Rwrite _ _ _ _ := .panic
  Rflush _ _ := .panic

/-- steps that neither break a connection nor dispatch a request -/
def Plain (l : WLabel) : Prop := Smooth l ∧ l ≠ .step .reply

theorem plain_waits {σ : Type} {ns : NineServer σ} {l : WLabel} {s s' : Wired σ} (hl : Plain l) (hs : WStep ns l s s') : Waits s s' := by
  intro got h
  obtain ⟨h1, h2⟩ := hl
  cases hs with
  | serve => exact absurd rfl h2
  | serveFails => exact h1.elim
  | srvHdr _ x r hrd => rw [hrd] at h; cases h
  | srvShort => exact h1.elim
  | srvEnd => exact h1.elim
  | srvBody _ g x r n hrd hu h0 hx =>
    rw [hrd] at h
    cases h
    omega
  | srvBodyErr => exact h1.elim
  | srvBodyEOF => exact h1.elim
  | _ => exact h

/-- steps of one link -/
theorem site_link {host : Host ω H} {user : GoString} {ns : NineServer (Obj H)} {s s' : Wired (Obj H)} (he : WExec ns Plain s s') (n : Site ω H) (i : Nat)
    (hs : (n.link i).w = s) (hx : n.exit = false) : ∃ ls, SiteExec host user n ls (n.setLink i { n.link i with w := s' }) ∧
      ∀ l ∈ ls, ∃ x, l = .link i x ∧ Plain x := by
  induction he with
  | refl =>
    refine ⟨[], ?_, nofun⟩
    subst hs
    have : n.setLink i { n.link i with w := (n.link i).w } = n := by simp only [Site.setLink, upd_id]
    rw [this]
    exact .refl _
  | step s1 s2 l he hl hst ih =>
    obtain ⟨ls, h1, h2⟩ := ih
    have hst' : WStep ns l ((n.setLink i { n.link i with w := s1 }).link i).w s2 := by simpa [Site.setLink, upd] using hst
    have := SiteStep.link (host := host) (user := user) _ i ns l s2 hst' (plain_waits hl hst') (by simp [Site.setLink, hx])
    have he2 : (n.setLink i { n.link i with w := s1 }).setLink i { (n.setLink i { n.link i with w := s1 }).link i with w := s2 } =
        n.setLink i { n.link i with w := s2 } := by
      simp only [Site.setLink, upd]
      congr 1
      funext j
      by_cases hj : j = i <;> simp [hj, upd]
    rw [he2] at this
    refine ⟨_, h1.step this, ?_⟩
    intro x hx'
    rcases List.mem_append.1 hx' with h | h
    · exact h2 x h
    · simp at h; subst h; exact ⟨l, rfl, hl⟩

theorem SiteExec.trans {host : Host ω H} {user : GoString} {a b c : Site ω H} {l1 l2 : List (SiteLabel ω H)} (h1 : SiteExec host user a l1 b)
    (h2 : SiteExec host user b l2 c) : SiteExec host user a (l1 ++ l2) c := by
  induction h2 with
  | refl => simpa using h1
  | step _ hs ih => rw [← List.append_assoc]; exact ih.step hs

/-- **C96** When the process of the server has ended, nothing more is done for any client: no request is read or served, and nothing
happens to the files but by others. -/
theorem C96_ended {host : Host ω H} {user : GoString} {n n' : Site ω H} {l : SiteLabel ω H} (hx : n.exit = true) (hs : SiteStep host user l n n') :
    n'.exit = true ∧ (∀ i, (n'.link i).w.srv = (n.link i).w.srv ∧ (n'.link i).w.srvRd = (n.link i).w.srvRd ∧ (n'.link i).running = (n.link i).running) ∧
      ((∀ w, l ≠ .other w) → n'.world = n.world) := by
  have no {P : Prop} (h : n.exit = false) : P := by rw [hx] at h; cases h
  cases hs with
  | link _ i ns wl w' hw hwt hrd =>
    refine ⟨hx, fun j => ?_, fun _ => rfl⟩
    by_cases hj : j = i
    · subst hj
      have hr := hrd hx
      simp only [Site.setLink, upd_same]
      refine ⟨?_, hr, trivial⟩
      cases hw with
      | serve _ got spare srv' b h1 h2 => 
        have := hwt _ h1
        simp at this
      | serveFails _ got spare srv' b x h1 h2 h3 =>
        have := hwt _ h1
        simp at this
      | _ => rfl
    · simp [Site.setLink, upd, hj]
  | start _ i _ _ h => exact no h
  | call _ i _ _ h => exact no h
  | reply _ i _ _ _ h => exact no h
  | replyFails _ i _ _ _ _ h => exact no h
  | panic _ i h => exact no h
  | fatal => exact ⟨rfl, fun _ => ⟨rfl, rfl, rfl⟩, fun _ => rfl⟩
  | other w => exact ⟨hx, fun _ => ⟨rfl, rfl, rfl⟩, fun h => absurd rfl (h _)⟩

/-- C96: after `log.Fatalf` another process writes -/
example (host : Host ω H) (user : GoString) (n : Site ω H) (w : ω) : ∃ n', SiteStep host user .fatal n n' ∧ n'.exit = true ∧ SiteStep host user (.other w) n' { n' with world := w } :=
  ⟨_, .fatal n, rfl, .other _ w⟩
/-- The connection of client 0 breaks; client 1 negotiates. -/
theorem site_instance : ∃ (n : Site Mem.World Nat) (ls : List (SiteLabel Mem.World Nat)) (b : Bytes),
    SiteExec Mem.shortHost (lit "harvey") (Site.start [47, 120] Mem.world0) ls n ∧ n.Fine ∧ (∀ l ∈ ls, l.Clean) ∧ (∀ l ∈ ls, l.Smooth 1) ∧
      n.exit = false ∧ (n.link 0).w.upClosed = true ∧ (n.link 1).w.cl.phase 0 = .done b ∧ (n.link 1).w.srv.Versioned = true := by
  obtain ⟨ts, hts⟩ := init_tags
  let m : TMsg := .version ⟨8192, lit "9P2000"⟩
  let q := m.packet 1
  let n0 : Site Mem.World Nat := Site.start [47, 120] Mem.world0
  have g0 : SiteStep Mem.shortHost (lit "harvey") (.link 0 .cut) n0 _ :=
    SiteStep.link n0 0 (idleNS _) .cut _ (WStep.cutUp _ [] [] rfl) (by intro got h; exact h) (by simp [n0, Site.start])
  generalize hn1 : n0.setLink 0 _ = n1 at g0
  have l0 : (n1.link 0).w.upClosed = true := by subst hn1; rfl
  have l0m : (n1.link 0).w.cl = init := by subst hn1; rfl
  have l1 : n1.link 1 = n0.link 1 := by subst hn1; rfl
  have lr : ∀ i, i ≠ 0 → n1.link i = n0.link i := by subst hn1; intro i hi; simp [Site.setLink, upd, hi]
  have x1 : n1.exit = false := by subst hn1; rfl
  let w0 : Wired (Obj Nat) := { cl := init, srv := { ns := newObj [47, 120] } }
  obtain ⟨s, he, h1, h2, h3, h4, h5, h6, h7, h8, h9, k1, k2, k4, k5, k6, k7⟩ := call_written (ns := idleNS _) (L := Plain) (by simp [Plain, Smooth])
    (by simp [Plain, Smooth]) w0 m 1 ts rfl rfl rfl rfl hts rfl rfl rfl rfl rfl rfl rfl rfl
  have h7 : s.clRd = .hdr := h7
  have h8 : s.down = [] := h8
  have h9 : s.downClosed = false := h9
  have k4 : s.up = q := k4
  have k5 : s.srvRd = .hdr := k5
  have hr : s.Running := ⟨by simp [Alive, h4], k1⟩
  have pio : Plain .io := by simp [Plain, Smooth]
  have e1 := WExec.step _ _ _ _ he pio (WStep.srvHdr s (q.take 7) (q.drop 7) k5 (by simp [k4]) rfl)
  have e2 := WExec.step _ _ _ _ e1 pio (WStep.srvBody _ (q.take 7) (q.drop 7) [] 12 (congrArg (Rd.body _) (by decide)) (by simp) (by decide) (by decide))
  obtain ⟨ls1, f1, f2⟩ := site_link (host := Mem.shortHost) (user := lit "harvey") e2 n1 1 (by rw [l1]; rfl) x1
  generalize hs2 : ({ s with up := [], srvRd := Rd.body (q.take 7 ++ q.drop 7) (12 - (q.drop 7).length) } : Wired (Obj Nat)) = s2 at f1
  generalize hn2 : n1.setLink 1 _ = n2 at f1
  have y1 : n2.link 1 = { w := s2 } := by subst hn2; simp [Site.setLink, upd, l1, n0, Site.start]
  have yr : ∀ i, i ≠ 1 → n2.link i = n1.link i := by subst hn2; intro i hi; simp [Site.setLink, upd, hi]
  have x2 : n2.exit = false := by subst hn2; exact x1
  have f3 := f1.step (SiteStep.start n2 1 q [] x2 (by rw [y1]) (by rw [y1]; subst hs2; simp [List.take_append_drop]; decide))
  obtain ⟨o, b, hb, hbt⟩ : ∃ o b, pdispatch (lit "harvey") (n2.link 1).w.srv.ns (n2.link 1).w.srv.Versioned ⟨[], q.drop 5, []⟩ (q.getD 4 0) = .ret (o, true, b) ∧
      b.bytes = (RMsg.version ⟨8192, lit "9P2000"⟩).packet 1 := by
    rw [y1]
    subst hs2
    simp only [k2]
    have h : (match pdispatch (H := Nat) (lit "harvey") w0.srv.ns w0.srv.Versioned ⟨[], q.drop 5, []⟩ (q.getD 4 0) with
      | .ret (_, v, b) => some (v, b.bytes)
      | _ => none) = some (true, (RMsg.version ⟨8192, lit "9P2000"⟩).packet 1) := by decide +kernel
    generalize pdispatch (H := Nat) (lit "harvey") w0.srv.ns w0.srv.Versioned ⟨[], q.drop 5, []⟩ (q.getD 4 0) = d at h
    cases d with
    | ret x =>
      obtain ⟨o, v, b⟩ := x
      simp only [Option.some.injEq, Prod.mk.injEq] at h
      exact ⟨o, b, by rw [h.1], h.2⟩
    | panic => cases h
    | call => cases h
  rw [hb] at f3
  generalize hn3 : n2.setLink 1 _ = n3 at f3
  have z1 : n3.link 1 = { w := s2, running := some (.ret (o, true, b)) } := by subst hn3; simp [Site.setLink, upd, y1]
  have zr : ∀ i, i ≠ 1 → n3.link i = n2.link i := by subst hn3; intro i hi; simp [Site.setLink, upd, hi]
  have x3 : n3.exit = false := by subst hn3; exact x2
  have f4 := f3.step (SiteStep.reply n3 1 o true b x3 (by rw [z1]))
  generalize hn4 : n3.setLink 1 _ = n4 at f4
  let s4 : Wired (Obj Nat) := { s2 with
        cl := answered s2.cl b.bytes
        srv := ⟨o, true⟩
        srvRd := .hdr
        down := if s2.downClosed then s2.down else s2.down ++ b.bytes }
  have v1 : n4.link 1 = { w := s4 } := by subst hn4; simp [Site.setLink, upd, z1, s4]
  have vr : ∀ i, i ≠ 1 → n4.link i = n3.link i := by subst hn4; intro i hi; simp [Site.setLink, upd, hi]
  have x4 : n4.exit = false := by subst hn4; exact x3
  have hcl : s4.cl = answered s.cl b.bytes := by subst hs2; rfl
  have hans := answered_cons (cl := s.cl) (b := b.bytes) k6
  let p := (RMsg.version ⟨8192, lit "9P2000"⟩).packet 1
  have d0 : s4.down = p := by subst hs2; simp [s4, h8, h9, hbt, p]
  have d1 : s4.clRd = .hdr := by subst hs2; exact h7
  have d2 : s4.exited = false := by subst hs2; exact k1
  have c1 : s4.cl.phase 0 = .waiting := by rw [hcl, hans]; exact h1
  have c2 : s4.cl.msg = upd (fun _ => none) 0 (some m) := by rw [hcl, hans]; exact h2
  have c3 : s4.cl.reader = .idle := by rw [hcl, hans]; exact h3
  have c4 : s4.cl.recv = .idle := by rw [hcl, hans]; exact h4
  have c5 : s4.cl.rpc ((1 : Tag).toNat - 1) = some 0 := by rw [hcl, hans]; exact h5
  have hr4 : s4.Running := ⟨by simp [Alive, c4], d2⟩
  have e5 := WExec.step _ _ _ _ (WExec.refl (ns := idleNS _) (L := Plain) s4) pio (WStep.clHdr s4 (p.take 7) (p.drop 7) hr4 c3 d1 (by simp [d0]) rfl)
  have e6 := WExec.step _ _ _ _ e5 pio (WStep.clBody _ (p.take 7) (p.drop 7) [] 12 hr4 c3 (congrArg (Rd.body _) (by decide)) (by simp) (by decide) (by decide))
  obtain ⟨s5, r1, r2, r3, r4, r5, -⟩ := call_in (by simp [Plain, Smooth]) _ _ 1 p e6 c1 c3 c4 c5 rfl d2 (by decide) (by unfold Legal; decide)
  obtain ⟨ls2, t1, t2⟩ := site_link (host := Mem.shortHost) (user := lit "harvey") r1 n4 1 (by rw [v1]) x4
  have plain : ∀ l : SiteLabel Mem.World Nat, (∃ x, l = .link 1 x ∧ Plain x) → l.Clean ∧ l.Smooth 1 := by
    rintro l ⟨x, rfl, hx⟩
    exact ⟨smooth_noTrunc x hx.1, fun _ => hx.1⟩
  have labels : ∀ l ∈ [.link 0 .cut] ++ (ls1 ++ [.start 1] ++ [.reply 1 true] ++ ls2), l.Clean ∧ l.Smooth 1 := by
    intro l hl
    simp only [List.mem_append, List.mem_singleton] at hl
    rcases hl with rfl | ((h | rfl) | rfl) | h
    · exact ⟨by simp [SiteLabel.Clean, NoTrunc], fun h => by cases h⟩
    · exact plain l (f2 l h)
    · exact ⟨trivial, trivial⟩
    · exact ⟨trivial, fun _ => rfl⟩
    · exact plain l (t2 l h)
  refine ⟨_, _, p, ((SiteExec.refl _).step g0).trans (f4.trans t1), ?_, fun l hl => (labels l hl).1, fun l hl => (labels l hl).2, x4, ?_, ?_, ?_⟩
  · have hm : ∀ i c m', ((n4.setLink 1 { n4.link 1 with w := s5 }).link i).w.cl.msg c = some m' → m' = m := by
      intro i c m' h
      by_cases hi : i = 1
      · subst hi
        simp only [Site.setLink, upd, if_true, r3, c2] at h
        split at h
        · cases h; rfl
        · cases h
      · simp only [Site.setLink, upd, if_neg hi, vr i hi, zr i hi, yr i hi] at h
        by_cases h0 : i = 0
        · subst h0; rw [l0m] at h; cases h
        · rw [lr i h0] at h; cases h
    refine ⟨fun i c m' h => ?_, fun i c _ m' _ h => ⟨_, hm i c m' h⟩⟩
    rw [hm i c m' h]
    have hlen : (lit "9P2000").length = 6 := by decide
    refine ⟨?_, ?_, fun t => ?_⟩
    · show (lit "9P2000").length ≤ 65000
      omega
    · simp [m, TMsg.Fits, hlen]
    · simp [m, TMsg.packet, Spec.packet, TMsg.body, TMsg.fields, str, hlen]
  · simp only [Site.setLink, upd]
    rw [if_neg (by decide), vr 0 (by decide), zr 0 (by decide), yr 0 (by decide)]
    exact l0
  · simp [Site.setLink, upd, r2]
  · simp [Site.setLink, upd, r5, s4]

/-- C96: the program meets what the theorems ask for -/
example : Mem.shortHost.Short ∧ (lit "harvey").length < 2 ^ 13 := ⟨Mem.shortHost_short, by decide⟩

/-- C96: an execution with two clients, in one of which a call has returned while the connection of the other has broken -/
example : ∃ (n : Site Mem.World Nat) (ls : List (SiteLabel Mem.World Nat)) (b : Bytes),
    SiteExec Mem.shortHost (lit "harvey") (Site.start [47, 120] Mem.world0) ls n ∧ n.Fine ∧ (∀ l ∈ ls, l.Clean) ∧ (∀ l ∈ ls, l.Smooth 1) ∧
      n.exit = false ∧ (n.link 0).w.upClosed = true ∧ (n.link 1).w.cl.phase 0 = .done b ∧ (n.link 1).w.srv.Versioned = true := site_instance

end Ninep.Client
