import Verif.Props.Stack
import Verif.Props.UfsMore

/-!
# The agreed message size and requests (C117)

`Tversion` agrees on the size of the longest message of the session.  The client has a field for it (client.go:33) that
nothing but its `String` method looks at, and the file server forgets the number once it has echoed it
(filesystem/filesystem.go, `Rversion`).  What follows says exactly how long requests are, that each of them is sent and
executed whatever size was agreed, and that the size has no influence but on the replies that name it.
-/

namespace Ninep
open Spec Client

/-- the length of a request in bytes as the protocol lays it out: four bytes of size, one of type, two of tag, the fields -/
def Spec.TMsg.wireLen : TMsg → Nat
  | .version p => 13 + p.TVersion.length
  | .attach p => 19 + p.Uname.length + p.Aname.length
  | .flush _ => 9
  | .walk p => 17 + (p.Paths.map fun x => 2 + x.length).sum
  | .open_ _ => 12
  | .create p => 18 + p.Name.length
  | .stat _ => 11
  | .wstat p => 13 + p.B.length
  | .clunk _ => 11
  | .remove _ => 11
  | .read _ => 23
  | .write p => 23 + p.Data.length

/-- packets have these lengths -/
theorem packet_wireLen (m : TMsg) (t : Tag) : (m.packet t).length = m.wireLen := by
  cases m <;> simp [TMsg.packet, Spec.packet, TMsg.body, TMsg.fields, TMsg.wireLen, str]
  all_goals first
    | omega
    | (rename_i p
       have : List.map (List.length ∘ str) p.Paths = List.map (fun x => 2 + x.length) p.Paths :=
         List.map_congr_left fun x _ => by simp [str]
       rw [this]; omega)

/-- a Tversion that proposes another size -/
def resizeT (f : MaxSize → MaxSize) : TMsg → TMsg
  | .version p => .version { p with TMsize := f p.TMsize }
  | m => m

/-- a version reply with another size -/
def resizeR (f : MaxSize → MaxSize) : Except GoString RMsg → Except GoString RMsg
  | .ok (.version p) => .ok (.version { p with RMsize := f p.RMsize })
  | r => r

namespace Client

/-- **C117**, the part that holds: every request that a client has written has exactly the length that its fields
determine, whatever the server has sent.  So a program whose calls are all short enough sends no request that is longer
than agreed.

Full statement (false, see `Ufs.C117_counterexample`): no request is longer than the size of the version reply. -/
theorem C117_length_partial (trace : Bool) (s : State) (he : Exec trace anyone init s) (n : Nat) :
    (∀ c q, (c, q) ∈ s.written → ∃ m, s.msg c = some m ∧ q.length = m.wireLen) ∧
    ((∀ c m, s.msg c = some m → m.wireLen ≤ n) → ∀ x ∈ s.written, x.2.length ≤ n) := by
  have h : ∀ c q, (c, q) ∈ s.written → ∃ m, s.msg c = some m ∧ q.length = m.wireLen := by
    intro c q hq
    obtain ⟨-, -, m, t, hm, rfl⟩ := C25_tags_legal trace s he c q hq
    exact ⟨m, hm, packet_wireLen m t⟩
  refine ⟨h, fun hall x hx => ?_⟩
  obtain ⟨m, hm, hl⟩ := h x.1 x.2 hx
  rw [hl]
  exact hall _ m hm

end Client

namespace Ufs
variable {ω H : Type} {host : Host ω H} {user : GoString}

/-- **C117**: the size in a Tversion has no influence on what the file server does, nor on the reply to any request but
a Tversion. -/
theorem C117_server_partial (f : MaxSize → MaxSize) (ms : List TMsg) (s : State ω H) :
    runCalls (ufs host user) (ms.map (resizeT f)) s =
      (runCalls (ufs host user) ms s).map fun y => (y.1, y.2.map (resizeR f)) := by
  induction ms generalizing s with
  | nil => rfl
  | cons m ms ih =>
    have hc : ∀ s, match call (ufs host user) m s with
        | .panic => call (ufs host user) (resizeT f m) s = .panic
        | .err s' e => call (ufs host user) (resizeT f m) s = .err s' e
        | .ok s' r => ∃ r', resizeR f (.ok r) = .ok r' ∧ call (ufs host user) (resizeT f m) s = .ok s' r' := by
      intro s
      cases m
      case version p =>
        simp only [resizeT, call, ufs, rversion]
        by_cases hv : p.TVersion ≠ lit "9P2000"
        · simp [if_pos hv, mapRes]
        · simp [if_neg hv, mapRes, resizeR]
      all_goals
        simp only [resizeT]
        generalize hr : call (ufs host user) _ s = r
        cases r
        · rfl
        · rename_i s' r
          refine ⟨r, ?_, rfl⟩
          cases r <;> first | rfl | skip
          simp only [call, mapRes] at hr
          split at hr <;> cases hr
        · rfl
    simp only [List.map_cons, runCalls]
    have := hc s
    generalize call (ufs host user) m s = r at this
    cases r with
    | panic => simp only at this; rw [this]; rfl
    | ok s' r =>
      obtain ⟨r', h1, h2⟩ := this
      rw [h2]
      simp only [ih]
      cases runCalls (ufs host user) ms s' <;> simp [h1]
    | err s' e =>
      simp only at this
      rw [this]
      simp only [ih]
      cases runCalls (ufs host user) ms s' <;> simp [resizeR]

/-- **C117**: in no state that client and server can get into is any request too long: whatever sizes were agreed, a
call that is made is sent, with the length of `wireLen`, and answered. -/
theorem C117_unlimited (hh : host.Short) (hu : user.length < 2 ^ 13) (root : GoString) (w : ω) (s : Sys (State ω H))
    (he : SysExec (ufs host user) everything ⟨init, ⟨newFS root w, true⟩⟩ s) (hf : CallsFit Ordinary s.cl)
    (ht : s.cl.taken.length < 65534) (c : Nat) (hc : s.cl.phase c = .idle) (m : TMsg) (hm : Ordinary m) (hmf : m.Fits)
    (hml : m.wireLen < 2 ^ 32) :
    ∃ s' q b, SysExec (ufs host user) everything s s' ∧ s'.cl.msg = upd s.cl.msg c (some m) ∧
      (c, q) ∈ s'.cl.written ∧ q.length = m.wireLen ∧ s'.cl.phase c = .done b ∧
      (c, q, b) ∈ s'.cl.replied ∧ s'.cl.taken = s.cl.taken ∧ ∀ d, s'.cl.phase d = .idle ∨ ∃ y, s'.cl.phase d = .done y := by
  have hns := ufs_modest (host := host) (user := user) hh hu
  have hal : Alive s.cl := ((sys_exec hns (sysInv_init _ _) he hf).1).open_.recv
  have e1 := SysExec.step s s _ .call (SysExec.refl s) (L := everything) trivial hal
    (SysStep.client (ns := ufs host user) .call s.cl _ s.srv trivial (Step.call s.cl c m hc))
  have e01 := sysExec_trans he e1
  have hf1 : ∀ cl : Client.State, cl.msg = upd s.cl.msg c (some m) → CallsFit Ordinary cl := by
    intro cl hcl d m' hm'
    rw [hcl] at hm'
    by_cases hd : d = c
    · subst hd
      rw [upd_same] at hm'
      cases hm'
      exact ⟨hm, hmf, fun t => by rw [packet_wireLen]; exact hml⟩
    · rw [upd_other _ _ hd] at hm'
      exact hf d m' hm'
  obtain ⟨s', h1, h2, h3, h4⟩ := sys_settles Ordinary _ hns _ _ _ rfl e01 (hf1 _ rfl)
  replace h2 : s'.cl.msg = upd s.cl.msg c (some m) := h2
  have e2 : SysExec (ufs host user) everything s s' := sysExec_trans e1 h1
  have hfs := hf1 s'.cl h2
  have hes := sysExec_trans he e2
  have hi := (sys_exec hns (sysInv_init _ _) hes hfs).1
  have hne : s'.cl.phase c ≠ .idle := by
    intro h
    have := hi.inv.idle c h
    rw [h2, upd_same] at this
    cases this
  have hall := (C67_returns hh hu root w s' hes hfs (by rw [h3]; exact ht)).2 h4
  obtain ⟨b, hb⟩ := hall c hne
  obtain ⟨q, hq⟩ := hi.inv.done c b hb
  have hw := (hi.inv.replied _ hq).1
  obtain ⟨m', t, -, hm', hq'⟩ := hi.inv.written _ hw
  rw [h2, upd_same] at hm'
  cases hm'
  refine ⟨s', q, b, e2, h2, hw, ?_, hb, hq, h3, fun d => (Classical.em _).imp_right (hall d)⟩
  rw [show q = _ from hq']
  exact packet_wireLen m t

/-- **C117 is false**, for every host and every size: the program agrees on the size, and then sends a longer request,
which the server executes and answers. -/
theorem C117_counterexample (hh : host.Short) (hu : user.length < 2 ^ 13) (root : GoString) (w : ω) (n : MaxSize)
    (hn : n.toNat + 23 < 2 ^ 32) :
    ∃ s s' b q r, SysExec (ufs host user) everything ⟨init, ⟨newFS root w, true⟩⟩ s ∧
      s.cl.msg 0 = some (.version ⟨n, lit "9P2000"⟩) ∧ s.cl.phase 0 = .done b ∧
      (∀ spare, callT (.version ⟨n, lit "9P2000"⟩) spare b = .ret (.version ⟨n, lit "9P2000"⟩) none) ∧
      s.cl.phase 1 = .idle ∧ SysExec (ufs host user) everything s s' ∧
      (1, q) ∈ s'.cl.written ∧ n.toNat < q.length ∧ (1, q, r) ∈ s'.cl.replied := by
  have hns := ufs_modest (host := host) (user := user) hh hu
  have e0 : SysExec (ufs host user) everything ⟨init, ⟨newFS root w, true⟩⟩ ⟨init, ⟨newFS root w, true⟩⟩ := SysExec.refl _
  have hlen : (lit "9P2000").length = 6 := by decide
  obtain ⟨s, q, b, e1, hmsg, hw, hl, hb, hr, htk, hquiet⟩ := C117_unlimited hh hu root w _ e0 (by intro c m hm; cases hm) (by simp [init]) 0 rfl
    (.version ⟨n, lit "9P2000"⟩) (by simp [Ordinary, hlen]) (by simp [TMsg.Fits, hlen]) (by simp [TMsg.wireLen, hlen])
  have hf : CallsFit Ordinary s.cl := by
    intro c m hm
    rw [hmsg] at hm
    by_cases hc : c = 0
    · subst hc
      rw [upd_same] at hm
      cases hm
      exact ⟨by simp [Ordinary, hlen], by simp [TMsg.Fits, hlen], fun t => by rw [packet_wireLen]; simp [TMsg.wireLen, hlen]⟩
    · rw [upd_other _ _ hc] at hm
      cases hm
  have hi := (sys_exec hns (sysInv_init _ _) e1 hf).1
  obtain ⟨hnd, hpre, ms, outs, ho, hrun, hdone⟩ := C36_remote_is_local Ordinary _ hns _ s e1 hf
  have hzero : ∀ c ∈ order s, c = 0 := by
    intro c hc
    obtain ⟨x, hx, rfl⟩ := List.mem_map.1 hc
    obtain ⟨m, t, -, hm, -⟩ := hi.inv.written _ (hi.inv.replied x hx).1
    by_cases hc0 : x.1 = 0
    · exact hc0
    · rw [hmsg, upd_other _ _ hc0] at hm
      cases hm
  have hone : order s = [0] := by
    have h0 : 0 ∈ order s := List.mem_map.2 ⟨_, hr, rfl⟩
    generalize order s = l at hnd hzero h0
    match l with
    | [] => cases h0
    | [x] => rw [hzero x (by simp)]
    | x :: y :: l =>
      have hx := hzero x (by simp)
      have hy := hzero y (by simp)
      subst hx hy
      simp at hnd
  rw [hone] at ho hdone
  have hms : ms = [.version ⟨n, lit "9P2000"⟩] := by
    match ms with
    | [] => simp at ho
    | _ :: _ :: _ => simp at ho
    | [m] =>
      simp only [List.map_cons, List.map_nil, hmsg, upd_same, List.cons.injEq, Option.some.injEq, and_true] at ho
      rw [← ho]
  subst hms
  have hrun' : runCalls (ufs host user) [.version ⟨n, lit "9P2000"⟩] (newFS root w) =
      some ({ newFS root w with Versioned := true }, [.ok (.version ⟨n, lit "9P2000"⟩)]) := by
    simp [runCalls, call, ufs, rversion, mapRes]
  rw [hrun'] at hrun
  simp only [Option.some.injEq, Prod.mk.injEq] at hrun
  obtain ⟨-, rfl⟩ := hrun
  obtain ⟨i, m, r, hi1, hi2, hi3, hi4⟩ := hdone 0 b hb
  have hi0 : i = 0 := by
    match i with
    | 0 => rfl
    | i + 1 => simp at hi1
  subst hi0
  cases hi2
  cases hi3
  have h1 : s.cl.phase 1 = .idle := by
    refine (hquiet 1).resolve_right ?_
    rintro ⟨y, hy⟩
    obtain ⟨q1, hq1⟩ := hi.inv.done 1 y hy
    exact absurd (hzero 1 (List.mem_map.2 ⟨_, hq1, rfl⟩)) (by simp)
  obtain ⟨s', q', b', e2, -, hw', hl', -, hr', -⟩ := C117_unlimited hh hu root w s e1 hf (by rw [htk]; simp [init]) 1 h1
    (.write ⟨0, 0, List.replicate n.toNat 0⟩) trivial (by simp [TMsg.Fits]; omega) (by simp [TMsg.wireLen]; omega)
  exact ⟨s, s', b, q', b', e1, by rw [hmsg, upd_same], hb, hi4, h1, e2, hw', by rw [hl']; simp [TMsg.wireLen], hr'⟩

/-- the conditions are met, e.g. by the example host and a size of 64 KB; and lengths: a Twrite of two bytes has 25, and
a Twalk of the names "a" and "bc" has 24 -/
example : Mem.shortHost.Short ∧ (lit "harvey").length < 2 ^ 13 ∧ (65536 : MaxSize).toNat + 23 < 2 ^ 32 ∧
    (TMsg.write ⟨1, 0, [1, 2]⟩).wireLen = 25 ∧ (TMsg.walk ⟨0, 1, [[97], [98, 99]]⟩).wireLen = 24 :=
  ⟨Mem.shortHost_short, by decide, by decide, by decide, by decide⟩

/-- a version call whose size is changed -/
example : resizeT (fun _ => 8192) (.version ⟨100, lit "9P2000"⟩) = .version ⟨8192, lit "9P2000"⟩ ∧
    resizeR (fun _ => 8192) (.ok (.version ⟨100, lit "9P2000"⟩)) = .ok (.version ⟨8192, lit "9P2000"⟩) := ⟨rfl, rfl⟩

end Ufs
end Ninep
