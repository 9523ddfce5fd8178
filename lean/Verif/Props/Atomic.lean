import Verif.Props.Busy

set_option linter.unusedSimpArgs false
set_option linter.unusedVariables false

/-!
# When overlapping requests are atomic (C94)
-/

namespace Ninep.Client
open Spec Ufs
variable {ω H : Type}

/-- has a call of the operating system been made for the request that connection `i` works on? -/
def begun (i : Nat) (ls : List (BLabel ω H)) : Bool :=
  ls.foldl (fun b l => match l with
    | .start j => if j = i then false else b
    | .call j _ => if j = i then true else b
    | .reply j => if j = i then false else b
    | _ => b) false

/-- connection `i` is in the middle of a request: the operating system was called, and will be called again -/
def Halfway (ls : List (BLabel ω H)) (n : Busy ω H) (i : Nat) : Prop :=
  begun i ls = true ∧ ∃ x k, (n.con i).running = some (.call x k)

/-- the step does not touch the world, or is made for connection `i` -/
def Undisturbed (i : Nat) : BLabel ω H → Prop
  | .call j _ => j = i
  | .other _ => False
  | _ => True

/-- the executions that go on from `n`, which was reached with the steps `ls`, and in which, while a connection is in
the middle of a request, nobody else calls the operating system -/
inductive Calm (host : Host ω H) (user : GoString) (ls : List (BLabel ω H)) (n : Busy ω H) : List (BLabel ω H) → Busy ω H → Prop
  | refl : Calm host user ls n [] n
  | step {ls' l n1 n2} : Calm host user ls n ls' n1 → BStep host user l n1 n2 → (∀ i, Halfway (ls ++ ls') n1 i → Undisturbed i l) →
      Calm host user ls n (ls' ++ [l]) n2

theorem begun_snoc (i : Nat) (ls : List (BLabel ω H)) (l : BLabel ω H) : begun i (ls ++ [l]) = match l with
    | .start j => if j = i then false else begun i ls
    | .call j _ => if j = i then true else begun i ls
    | .reply j => if j = i then false else begun i ls
    | _ => begun i ls := by
  unfold begun
  rw [List.foldl_append]
  cases l <;> rfl

/-- the worlds that other processes made -/
def madeByOthers (ls : List (BLabel ω H)) : List ω := ls.filterMap fun
  | .other w => some w
  | _ => none

theorem others_append (ls ls' : List (BLabel ω H)) : madeByOthers (ls ++ ls') = madeByOthers ls ++ madeByOthers ls' := List.filterMap_append

/-! ### the invariant -/

/-- how far connection `i` is, compared with a history of whole requests that ends with the object `oi` and the world `w1` -/
def Stage (host : Host ω H) (user : GoString) (oi : Obj H) (w1 world : ω) (i : Nat) (s : State) (con : Con H) (bg : Bool) (pend : List Ans) : Prop :=
  match con.running with
  | none => pend = [] ∧ oi = con.obj
  | some (.ret (o', _, b)) => oi = o' ∧ ∃ c y t m out, s.wire = (c, m.packet t) :: y ∧ pend = [⟨⟨i, c, m, out⟩, t⟩] ∧ b.bytes = asPacket t out ∧
      b.bytes.length = pktLen b.bytes ∧ tagField b.bytes = t.toNat
  | some .panic => False
  | some (.call x k) => pend = [] ∧ oi = con.obj ∧ ∃ c q y spare, s.wire = (c, q) :: y ∧
      (bg = false → Prog.call x k = pdispatch user con.obj true ⟨[], q.drop 5, spare⟩ (q.getD 4 0)) ∧
      (bg = true → (pdispatch user con.obj true ⟨[], q.drop 5, spare⟩ (q.getD 4 0)).run host w1 = (Prog.call x k).run host world)

structure AInv (host : Host ω H) (user : GoString) (o0 : Nat → Obj H) (w0 : ω) (ls : List (BLabel ω H)) (n : Busy ω H) (h : List Ans)
    (o : Nat → Obj H) (w1 : ω) (pend : Nat → List Ans) : Prop where
  inv : ∀ i, Inv (n.cl i)
  open_ : ∀ i, Open (n.cl i)
  fifo : ∀ i, (n.cl i).written = (n.cl i).replied.map (fun r => (r.1, r.2.1)) ++ (n.cl i).wire
  replied : ∀ i, ∃ a, (h.filter fun a => a.made.client = i) = a ++ pend i ∧ (n.cl i).replied = a.map Ans.replied
  msg : ∀ a ∈ h, (n.cl a.made.client).msg a.made.call = some a.made.msg
  direct : Direct (ufs host user) o0 w0 (madeByOthers ls) (h.map Ans.made) o w1
  good : ∀ a ∈ h, GoodRes a.made.msg a.made.out
  stage : ∀ i, Stage host user (o i) w1 n.world i (n.cl i) (n.con i) (begun i ls) (pend i)
  world : (∀ i, ¬ Halfway ls n i) → w1 = n.world
  one : ∀ i j, Halfway ls n i → Halfway ls n j → i = j

/-- the outcome of a request that is run to its end without a break -/
theorem whole {host : Host ω H} (hh : host.Short) {user : GoString} (hu : user.length < 2 ^ 13) {m : TMsg} {t : Tag} {spare : Bytes} {obj o' : Obj H}
    {v : Bool} {b : Buffer} {w1 w2 : ω} (hm : Ordinary m) (hf : m.Fits) (hl : (m.packet t).length < 2 ^ 32)
    (hp : (pdispatch user obj true ⟨[], (m.packet t).drop 5, spare⟩ ((m.packet t).getD 4 0)).run host w1 = some (w2, (o', v, b))) :
    ∃ out, GoodRes m out ∧ b.bytes = asPacket t out ∧ b.bytes.length = pktLen b.bytes ∧ tagField b.bytes = t.toNat ∧
      ∀ (o : Nat → Obj H) i c, o i = obj → ∀ oo ww us hs, Direct (ufs host user) oo ww us hs o w1 →
        Direct (ufs host user) oo ww us (hs ++ [⟨i, c, m, out⟩]) (upd o i o') w2 := by
  have hd : dispatch (ufs host user) ⟨obj.into w1, true⟩ ⟨[], (m.packet t).drop 5, spare⟩ ((m.packet t).getD 4 0) =
      .done ⟨o'.into w2, v⟩ b := by
    rw [run_dispatch, show (obj.into w1).obj = obj from rfl, show (obj.into w1).world = w1 from rfl, hp]
    rfl
  obtain ⟨-, hcase⟩ := serve_answer hf hl rfl hd
  have hmod := ufs_modest hh hu
  rcases hcase with ⟨r, hc, hb⟩ | ⟨e, hc, hb⟩
  · have hmod := (hmod m _ hm hf).1 _ _ hc
    refine ⟨.ok r, ⟨call_type _ m _ _ _ hc, hmod.1⟩, hb, ?_, ?_, ?_⟩
    · rw [hb]; exact packetR_framing r t (hmod.2 t)
    · rw [hb]; exact tagField_packetR r t
    · intro o i c ho oo ww us hs hdir
      subst ho
      exact Direct.ok i c m hdir hc
  · have hmod := (hmod m _ hm hf).2 _ _ hc
    refine ⟨.error e, hmod, hb, ?_, ?_, ?_⟩
    · rw [hb]; exact packetR_framing _ t (error_length e t hmod)
    · rw [hb]; exact tagField_packetR _ t
    · intro o i c ho oo ww us hs hdir
      subst ho
      exact Direct.err i c m hdir hc

theorem whole_some {host : Host ω H} {user : GoString} {m : TMsg} {t : Tag} {spare : Bytes} {obj : Obj H} {w1 : ω} (hm : Ordinary m) (hf : m.Fits)
    (hl : (m.packet t).length < 2 ^ 32) :
    (pdispatch user obj true ⟨[], (m.packet t).drop 5, spare⟩ ((m.packet t).getD 4 0)).run host w1 ≠ none := by
  intro hp
  have hd : dispatch (ufs host user) ⟨obj.into w1, true⟩ ⟨[], (m.packet t).drop 5, spare⟩ ((m.packet t).getD 4 0) = .panic := by
    rw [run_dispatch, show (obj.into w1).obj = obj from rfl, show (obj.into w1).world = w1 from rfl, hp]
    rfl
  obtain ⟨-, h2, h3⟩ := packet_framing m t hl
  rw [h2, h3, dispatch_request _ m _ _ (.inl rfl), (lawsT m).fwd hf] at hd
  unfold handle at hd
  dsimp only at hd
  cases hcall : Spec.call (ufs host user) m (obj.into w1) with
  | panic => exact ufs_returns _ _ hm hcall
  | ok x r => simp [hcall] at hd
  | err x r => simp [hcall] at hd

/-- more whole requests, and changes by others, after those that lead to `o` and `w1` -/
def Extends (host : Host ω H) (user : GoString) (o : Nat → Obj H) (w1 : ω) (us : List ω) (t : List Ans) (o' : Nat → Obj H) (w1' : ω) : Prop :=
  ∀ oo ww us0 hs, Direct (ufs host user) oo ww us0 hs o w1 → Direct (ufs host user) oo ww (us0 ++ us) (hs ++ t.map Ans.made) o' w1'

theorem extends_nil (host : Host ω H) (user : GoString) (o : Nat → Obj H) (w1 : ω) : Extends host user o w1 [] [] o w1 := by
  intro oo ww us0 hs hd; simpa using hd

/-- connection `i` gets to the program `p`, after a start or a call of the operating system -/
theorem atomic_move {host : Host ω H} (hh : host.Short) {user : GoString} (hu : user.length < 2 ^ 13) {o0 : Nat → Obj H} {w0 : ω}
    {ls : List (BLabel ω H)} {n : Busy ω H} {h : List Ans} {o : Nat → Obj H} {w1 : ω} {pend : Nat → List Ans} (hi : AInv host user o0 w0 ls n h o w1 pend)
    (hf : BFit Ordinary n) (l : BLabel ω H) (i c : Nat) (q : Bytes) (y : List (Nat × Bytes)) (spare : Bytes) (p : Prog H (Ufs.Served H)) (wnow world' : ω)
    (hlo : madeByOthers [l] = []) (hw : (n.cl i).wire = (c, q) :: y) (hpend : pend i = []) (hobj : o i = (n.con i).obj)
    (hrun : (pdispatch user (n.con i).obj true ⟨[], q.drop 5, spare⟩ (q.getD 4 0)).run host w1 = p.run host wnow)
    (hbg : ∀ j, j ≠ i → begun j (ls ++ [l]) = begun j ls)
    (hnew : (begun i (ls ++ [l]) = false → p = pdispatch user (n.con i).obj true ⟨[], q.drop 5, spare⟩ (q.getD 4 0)) ∧
      (begun i (ls ++ [l]) = true → wnow = world' ∧ ∀ j, j ≠ i → ¬ Halfway ls n j))
    (hkind : (wnow = w1 ∧ world' = n.world ∧ begun i (ls ++ [l]) = false ∧ (n.con i).running = none) ∨ (wnow = world' ∧ begun i (ls ++ [l]) = true)) :
    ∃ t o' w1' pend', AInv host user o0 w0 (ls ++ [l]) { n with con := upd n.con i { n.con i with running := some p }, world := world' }
      (h ++ t) o' w1' pend' ∧ Extends host user o w1 [] t o' w1' := by
  have hlo' : madeByOthers (ls ++ [l]) = madeByOthers ls := by rw [others_append, hlo, List.append_nil]
  obtain ⟨m, t, hlegal, hm, hq⟩ := (hi.inv i).wire (c, q) (by simp [hw])
  dsimp only at hm hq
  subst hq
  obtain ⟨hmP, hmf, hml⟩ := hf i c m hm
  have hnothalf : ∀ j, j ≠ i → (Halfway (ls ++ [l]) { n with con := upd n.con i { n.con i with running := some p }, world := world' } j ↔ Halfway ls n j) := by
    intro j hj
    unfold Halfway
    dsimp only
    rw [upd_other _ _ hj, hbg j hj]
  -- the others
  have hothers : ∀ j, j ≠ i → ∀ oj w1', (oj = o j) → ((begun i (ls ++ [l]) = false → w1' = w1)) →
      Stage host user oj w1' world' j (n.cl j) (n.con j) (begun j (ls ++ [l])) (pend j) := by
    intro j hj oj w1' ho hw1'
    subst ho
    rw [hbg j hj]
    have hst := hi.stage j
    unfold Stage at hst ⊢
    cases hr : (n.con j).running with
    | none => rw [hr] at hst; exact hst
    | some p =>
      cases p with
      | ret r => rw [hr] at hst; exact hst
      | panic => rw [hr] at hst; exact hst
      | call x k =>
        rw [hr] at hst
        obtain ⟨s1, s2, c', q', y', spare', s3, s4, s5⟩ := hst
        refine ⟨s1, s2, c', q', y', spare', s3, s4, fun hb => ?_⟩
        rcases hkind with ⟨-, hk2, hk3, -⟩ | ⟨-, hk3⟩
        · rw [hw1' hk3, hk2]; exact s5 hb
        · exact absurd ⟨hb, x, k, hr⟩ ((hnew.2 hk3).2 j hj)
  cases p with
  | panic => exact absurd hrun (whole_some hmP hmf (hml t))
  | call x k =>
    refine ⟨[], o, w1, pend, ⟨hi.inv, hi.open_, hi.fifo, by rw [List.append_nil]; exact hi.replied, by rw [List.append_nil]; exact hi.msg,
      by rw [List.append_nil, hlo']; exact hi.direct, by rw [List.append_nil]; exact hi.good, ?_, ?_, ?_⟩, extends_nil _ _ _ _⟩
    · intro j
      by_cases hj : j = i
      · subst hj
        unfold Stage
        dsimp only
        rw [upd_same]
        refine ⟨hpend, hobj, c, _, y, spare, hw, hnew.1, fun hb => ?_⟩
        rw [hrun, (hnew.2 hb).1]
      · dsimp only
        rw [upd_other _ _ hj]
        exact hothers j hj _ _ rfl (fun _ => rfl)
    · intro hno
      rcases hkind with ⟨-, hk2, hk3, hk4⟩ | ⟨-, hk3⟩
      · dsimp only
        rw [hk2]
        refine hi.world fun j => ?_
        by_cases hj : j = i
        · subst hj
          rintro ⟨hb, x', k', hr⟩
          rw [hk4] at hr
          cases hr
        · rw [← hnothalf j hj]; exact hno j
      · exact absurd ⟨hk3, x, k, by dsimp only; rw [upd_same]⟩ (hno i)
    · intro j1 j2 h1 h2
      by_cases e1 : j1 = i
      · by_cases e2 : j2 = i
        · rw [e1, e2]
        · subst e1
          exact absurd ((hnothalf j2 e2).1 h2) ((hnew.2 h1.1).2 j2 e2)
      · by_cases e2 : j2 = i
        · subst e2
          exact absurd ((hnothalf j1 e1).1 h1) ((hnew.2 h2.1).2 j1 e1)
        · exact hi.one j1 j2 ((hnothalf j1 e1).1 h1) ((hnothalf j2 e2).1 h2)
  | ret r =>
    obtain ⟨o', v, b⟩ := r
    obtain ⟨out, hg, hbo, hlen, htag, hdir⟩ := whole hh hu hmP hmf (hml t) hrun
    refine ⟨[⟨⟨i, c, m, out⟩, t⟩], upd o i o', wnow, upd pend i [⟨⟨i, c, m, out⟩, t⟩], ⟨hi.inv, hi.open_, hi.fifo, ?_, ?_, ?_, ?_, ?_, ?_, ?_⟩,
      fun oo ww us0 hs hd => by rw [List.append_nil]; exact hdir o i c hobj oo ww us0 hs hd⟩
    · intro j
      obtain ⟨a, h1, h2⟩ := hi.replied j
      refine ⟨a, ?_, h2⟩
      rw [List.filter_append, h1]
      by_cases hj : j = i
      · subst hj; rw [upd_same, hpend]; simp
      · rw [upd_other _ _ hj]; simp [Ne.symm hj]
    · intro a ha
      rcases List.mem_append.1 ha with ha | ha
      · exact hi.msg a ha
      · rw [List.mem_singleton.1 ha]; exact hm
    · rw [List.map_append, hlo']; exact hdir o i c hobj _ _ _ _ hi.direct
    · intro a ha
      rcases List.mem_append.1 ha with ha | ha
      · exact hi.good a ha
      · rw [List.mem_singleton.1 ha]; exact hg
    · intro j
      by_cases hj : j = i
      · subst hj
        unfold Stage
        dsimp only
        rw [upd_same, upd_same, upd_same]
        exact ⟨rfl, c, y, t, m, out, hw, rfl, hbo, hlen, htag⟩
      · dsimp only
        rw [upd_other _ _ hj, upd_other _ _ hj, upd_other _ _ hj]
        refine hothers j hj _ _ rfl fun hb => ?_
        rcases hkind with ⟨hk1, -⟩ | ⟨-, hk3⟩
        · exact hk1
        · rw [hk3] at hb; cases hb
    · intro hno
      rcases hkind with ⟨hk1, hk2, hk3, hk4⟩ | ⟨hk1, hk3⟩
      · dsimp only
        rw [hk1, hk2]
        refine hi.world fun j => ?_
        by_cases hj : j = i
        · subst hj
          rintro ⟨hb, x', k', hr⟩
          rw [hk4] at hr
          cases hr
        · rw [← hnothalf j hj]; exact hno j
      · exact hk1
    · intro j1 j2 h1 h2
      have hne : ∀ j, Halfway (ls ++ [l]) { n with con := upd n.con i { n.con i with running := some (.ret (o', v, b)) }, world := world' } j → j ≠ i := by
        rintro j ⟨-, x, k, hr⟩ rfl
        dsimp only at hr
        rw [upd_same] at hr
        cases hr
      exact hi.one j1 j2 ((hnothalf j1 (hne j1 h1)).1 h1) ((hnothalf j2 (hne j2 h2)).1 h2)

theorem atomic_step {host : Host ω H} (hh : host.Short) {user : GoString} (hu : user.length < 2 ^ 13) {o0 : Nat → Obj H} {w0 : ω}
    {ls : List (BLabel ω H)} {n n' : Busy ω H} {l : BLabel ω H} {h : List Ans} {o : Nat → Obj H} {w1 : ω} {pend : Nat → List Ans}
    (hi : AInv host user o0 w0 ls n h o w1 pend) (hf : BFit Ordinary n) (hs : BStep host user l n n') (hc : ∀ i, Halfway ls n i → Undisturbed i l) :
    ∃ t o' w1' pend', AInv host user o0 w0 (ls ++ [l]) n' (h ++ t) o' w1' pend' ∧ Extends host user o w1 (madeByOthers [l]) t o' w1' := by
  cases hs with
  | other _ w =>
    have hno : ∀ i, ¬ Halfway ls n i := fun i hi => hc i hi
    have hbg : ∀ j, begun j (ls ++ [.other w]) = begun j ls := fun j => begun_snoc j ls _
    refine ⟨[], o, w, pend, ⟨hi.inv, hi.open_, hi.fifo, by rw [List.append_nil]; exact hi.replied, by rw [List.append_nil]; exact hi.msg,
      by rw [List.append_nil, others_append]; exact .other w hi.direct, by rw [List.append_nil]; exact hi.good, ?_, fun _ => rfl, ?_⟩, ?_⟩
    · intro j
      rw [hbg j]
      have hst := hi.stage j
      unfold Stage at hst ⊢
      dsimp only
      cases hr : (n.con j).running with
      | none => rw [hr] at hst; exact hst
      | some p =>
        cases p with
        | ret r => rw [hr] at hst; exact hst
        | panic => rw [hr] at hst; exact hst
        | call x k =>
          rw [hr] at hst
          obtain ⟨s1, s2, c', q', y', spare', s3, s4, s5⟩ := hst
          exact ⟨s1, s2, c', q', y', spare', s3, s4, fun hb => absurd ⟨hb, x, k, hr⟩ (hno j)⟩
    · intro j1 j2 h1 h2
      unfold Halfway at h1 h2
      rw [hbg] at h1 h2
      exact hi.one j1 j2 h1 h2
    · intro oo ww us0 hs hd
      simpa [madeByOthers] using Direct.other w hd
  | start _ i c q y spare hw hr =>
    have hst := hi.stage i
    unfold Stage at hst
    rw [hr] at hst
    refine atomic_move hh hu hi hf (.start i) i c q y spare _ w1 n.world rfl hw hst.1 hst.2 rfl ?_ ?_ (.inl ⟨rfl, rfl, ?_, hr⟩)
    · intro j hj
      rw [begun_snoc]
      simp [Ne.symm hj]
    · rw [begun_snoc]
      simp
    · rw [begun_snoc]
      simp
  | call _ i x k hr =>
    have hst := hi.stage i
    unfold Stage at hst
    rw [hr] at hst
    obtain ⟨s1, s2, c, q, y, spare, s3, s4, s5⟩ := hst
    have hbi : begun i (ls ++ [.call i ⟨x, (host.exec x n.world).2⟩]) = true := by rw [begun_snoc]; simp
    have hnot : ∀ j, j ≠ i → ¬ Halfway ls n j := fun j hj hh => hj (hc j hh).symm
    refine atomic_move hh hu hi hf (.call i ⟨x, (host.exec x n.world).2⟩) i c q y spare (k (host.exec x n.world).2) (host.exec x n.world).1
      (host.exec x n.world).1 rfl s3 s1 s2 ?_ ?_ ⟨by rw [hbi]; simp, fun _ => ⟨rfl, hnot⟩⟩ (.inr ⟨rfl, hbi⟩)
    · by_cases hb : begun i ls = true
      · rw [s5 hb]; rfl
      · have hb : begun i ls = false := by simpa using hb
        have hw1 : w1 = n.world := hi.world fun j => by
          by_cases hj : j = i
          · subst hj; rintro ⟨h1, -⟩; rw [hb] at h1; cases h1
          · exact hnot j hj
        rw [← s4 hb, hw1]; rfl
    · intro j hj
      rw [begun_snoc]
      simp [Ne.symm hj]
  | client _ i l cl' hl hal hst =>
    have hsv : Serving l := by cases l <;> simp [ClientSide, Serving] at hl ⊢
    have hbg : ∀ j, begun j (ls ++ [.client i l]) = begun j ls := fun j => begun_snoc j ls _
    have hw : cl'.written = cl'.replied.map (fun r => (r.1, r.2.1)) ++ cl'.wire := by
      have hfifo := hi.fifo i
      generalize n.cl i = c at hst hfifo
      cases hst <;> first | exact hl.elim | exact hfifo | skip
      dsimp only at hfifo ⊢
      rw [hfifo, List.append_assoc]
    have hrep : cl'.replied = (n.cl i).replied := by
      generalize n.cl i = c at hst
      cases hst <;> first | exact hl.elim | rfl
    obtain ⟨z, hz⟩ := wire_prefix hl hst
    refine ⟨[], o, w1, pend, ⟨upd_all (fun (s : State) _ => Inv s) (inv_step (serving_abiding l hsv) (hi.inv i) hst) (fun j _ => hi.inv j),
      upd_all (fun (s : State) _ => Open s) (open_step hsv (hi.inv i) (hi.open_ i) hst) (fun j _ => hi.open_ j),
      upd_all (fun (s : State) _ => s.written = s.replied.map (fun r => (r.1, r.2.1)) ++ s.wire) hw (fun j _ => hi.fifo j),
      ?_, ?_, by rw [List.append_nil, others_append]; simpa [madeByOthers] using hi.direct, by rw [List.append_nil]; exact hi.good, ?_, ?_, ?_⟩, extends_nil _ _ _ _⟩
    · rw [List.append_nil]
      refine upd_all (fun (s : State) j => ∃ a, (h.filter fun a => a.made.client = j) = a ++ pend j ∧ s.replied = a.map Ans.replied) ?_ (fun j _ => hi.replied j)
      rw [hrep]; exact hi.replied i
    · rw [List.append_nil]
      intro a ha
      exact upd_all (fun (s : State) j => a.made.client = j → s.msg a.made.call = some a.made.msg)
        (fun hai => msg_step (hi.inv i) hst (by have := hi.msg a ha; rw [hai] at this; exact this)) (fun j _ hai => hai ▸ hi.msg a ha) a.made.client rfl
    · intro j
      rw [hbg j]
      have hsg := hi.stage j
      by_cases hj : j = i
      · subst hj
        dsimp only
        rw [upd_same]
        unfold Stage at hsg ⊢
        cases hr : (n.con j).running with
        | none => rw [hr] at hsg; exact hsg
        | some p =>
          rw [hr] at hsg
          cases p with
          | ret r =>
            obtain ⟨s1, c', y', t', m', out', s2, s3⟩ := hsg
            exact ⟨s1, c', y' ++ z, t', m', out', by rw [← hz, s2]; rfl, s3⟩
          | panic => exact hsg
          | call x k =>
            obtain ⟨s1, s2, c', q', y', spare', s3, s4⟩ := hsg
            exact ⟨s1, s2, c', q', y' ++ z, spare', by rw [← hz, s3]; rfl, s4⟩
      · dsimp only
        rw [upd_other _ _ hj]
        exact hsg
    · intro hno
      refine hi.world fun j hj => hno j ?_
      unfold Halfway
      rw [hbg j]
      exact hj
    · intro j1 j2 h1 h2
      unfold Halfway at h1 h2
      rw [hbg] at h1 h2
      exact hi.one j1 j2 h1 h2
  | reply _ i c q y o' v b hw hr =>
    have hbg : ∀ j, j ≠ i → begun j (ls ++ [.reply i]) = begun j ls := by
      intro j hj; rw [begun_snoc]; simp [Ne.symm hj]
    have hst := hi.stage i
    unfold Stage at hst
    rw [hr] at hst
    obtain ⟨s1, c', y', t, m, out, s2, s3, s4, s5, s6⟩ := hst
    rw [hw] at s2
    cases s2
    have hstep : Step true .reply (n.cl i) (answeredWith (n.cl i) c (m.packet t) y b.bytes) :=
      Step.reply (n.cl i) [] y c (m.packet t) b.bytes hw s5 (by rw [s6, tagField_packet]) (hi.open_ i).closed
    have hhalf : ∀ j, Halfway (ls ++ [.reply i]) { n with cl := upd n.cl i (answeredWith (n.cl i) c (m.packet t) y b.bytes), con := upd n.con i { obj := o' } } j ↔ Halfway ls n j := by
      intro j
      unfold Halfway
      by_cases hj : j = i
      · subst hj
        dsimp only
        rw [upd_same, hr]
        simp
      · dsimp only
        rw [upd_other _ _ hj, hbg j hj]
    refine ⟨[], o, w1, upd pend i [], ⟨upd_all (fun (s : State) _ => Inv s) (inv_step (l := .reply) trivial (hi.inv i) hstep) (fun j _ => hi.inv j),
      upd_all (fun (s : State) _ => Open s) (open_step (l := .reply) trivial (hi.inv i) (hi.open_ i) hstep) (fun j _ => hi.open_ j),
      upd_all (fun (s : State) _ => s.written = s.replied.map (fun r => (r.1, r.2.1)) ++ s.wire) ?_ (fun j _ => hi.fifo j),
      ?_, ?_, by rw [List.append_nil, others_append]; simpa [madeByOthers] using hi.direct, by rw [List.append_nil]; exact hi.good, ?_, ?_, ?_⟩, extends_nil _ _ _ _⟩
    · have hfifo := hi.fifo i
      simp only [answeredWith]
      rw [hfifo, hw]
      simp
    · rw [List.append_nil]
      intro j
      obtain ⟨a, h1, h2⟩ := hi.replied j
      by_cases hj : j = i
      · subst hj
        dsimp only
        rw [upd_same, upd_same]
        refine ⟨a ++ pend j, by rw [h1, List.append_nil], ?_⟩
        simp only [answeredWith]
        rw [h2, s3, List.map_append, s4]
        rfl
      · dsimp only
        rw [upd_other _ _ hj, upd_other _ _ hj]
        exact ⟨a, h1, h2⟩
    · rw [List.append_nil]
      intro a ha
      exact upd_all (fun (s : State) j => a.made.client = j → s.msg a.made.call = some a.made.msg)
        (fun hai => hai ▸ hi.msg a ha) (fun j _ hai => hai ▸ hi.msg a ha) a.made.client rfl
    · intro j
      by_cases hj : j = i
      · subst hj
        unfold Stage
        dsimp only
        rw [upd_same, upd_same]
        exact ⟨rfl, s1⟩
      · rw [hbg j hj]
        dsimp only
        rw [upd_other _ _ hj, upd_other _ _ hj, upd_other _ _ hj]
        exact hi.stage j
    · intro hno
      exact hi.world fun j hj => hno j ((hhalf j).2 hj)
    · intro j1 j2 h1 h2
      exact hi.one j1 j2 ((hhalf j1).1 h1) ((hhalf j2).1 h2)

theorem extends_trans {host : Host ω H} {user : GoString} {o o1 o2 : Nat → Obj H} {w w1 w2 : ω} {us us' : List ω} {t t' : List Ans}
    (h1 : Extends host user o w us t o1 w1) (h2 : Extends host user o1 w1 us' t' o2 w2) : Extends host user o w (us ++ us') (t ++ t') o2 w2 := by
  intro oo ww us0 hs hd
  rw [List.map_append, ← List.append_assoc, ← List.append_assoc]
  exact h2 _ _ _ _ (h1 _ _ _ _ hd)

theorem atomic_exec {host : Host ω H} (hh : host.Short) {user : GoString} (hu : user.length < 2 ^ 13) {o0 : Nat → Obj H} {w0 : ω}
    {ls ls' : List (BLabel ω H)} {n n' : Busy ω H} {h : List Ans} {o : Nat → Obj H} {w1 : ω} {pend : Nat → List Ans}
    (hi : AInv host user o0 w0 ls n h o w1 pend) (he : Calm host user ls n ls' n') (hf : BFit Ordinary n') :
    BFit Ordinary n ∧ ∃ t o' w1' pend', AInv host user o0 w0 (ls ++ ls') n' (h ++ t) o' w1' pend' ∧ Extends host user o w1 (madeByOthers ls') t o' w1' := by
  induction he with
  | refl => exact ⟨hf, [], o, w1, pend, by rw [List.append_nil, List.append_nil]; exact hi, extends_nil _ _ _ _⟩
  | @step ls1 l n1 n2 he hs hc ih =>
    have hfr : ∀ i, Fresh (n1.cl i) := by
      clear ih hf hs hc
      induction he with
      | refl => exact fun i c hc => (hi.inv i).idle c hc
      | step _ hs _ ih => exact (busy_fresh ih hs).1
    have hf1 : BFit Ordinary n1 := fun i c m hm => hf i c m ((busy_fresh hfr hs).2 i c m hm)
    obtain ⟨hfn, t, o1, w1', pend1, g1, g2⟩ := ih hf1
    obtain ⟨t', o2, w2, pend2, k1, k2⟩ := atomic_step hh hu g1 hf1 hs hc
    exact ⟨hfn, t ++ t', o2, w2, pend2, by rw [← List.append_assoc, ← List.append_assoc]; exact k1, by rw [others_append]; exact extends_trans g2 k2⟩

theorem aInv_start (host : Host ω H) (user root : GoString) (w : ω) :
    AInv host user (fun _ => newObj root) w [] (Busy.start root w) [] (fun _ => newObj root) w (fun _ => []) :=
  ⟨fun _ => inv_init, fun _ => open_init, fun _ => rfl, fun _ => ⟨[], rfl, rfl⟩, by simp, .nil, by simp, fun i => ⟨rfl, rfl⟩, fun _ => rfl,
    fun i j hi => by obtain ⟨h, -⟩ := hi; cases h⟩

/-- what the history says about the calls -/
theorem ans_calls {n : Busy ω H} {h : List Ans} {pend : Nat → List Ans} (hinv : ∀ i, Inv (n.cl i))
    (hreplied : ∀ i, ∃ a, (h.filter fun a => a.made.client = i) = a ++ pend i ∧ (n.cl i).replied = a.map Ans.replied)
    (hmsg : ∀ a ∈ h, (n.cl a.made.client).msg a.made.call = some a.made.msg) (hgood : ∀ a ∈ h, GoodRes a.made.msg a.made.out)
    (hfifo : ∀ i, (n.cl i).written = (n.cl i).replied.map (fun r => (r.1, r.2.1)) ++ (n.cl i).wire)
    (hpend : ∀ i, ∃ y, (n.cl i).wire.map Prod.fst = (pend i).map (fun a => a.made.call) ++ y) :
    ((h.map Ans.made).map fun e => (e.client, e.call)).Nodup ∧
    (∀ i, ((h.map Ans.made).filter fun e => e.client = i).map (fun e => e.call) <+: (n.cl i).written.map Prod.fst) ∧
    (∀ e ∈ h.map Ans.made, (n.cl e.client).phase e.call ≠ .idle ∧ (n.cl e.client).msg e.call = some e.msg) ∧
    ∀ i c b, (n.cl i).phase c = .done b → ∃ e ∈ h.map Ans.made, e.client = i ∧ e.call = c ∧ ∀ spare, callT e.msg spare b = asCall e.msg e.out := by
  refine ⟨?_, ?_, ?_, ?_⟩
  · have hnd : ∀ i, (((h.filter fun a => a.made.client = i).map Ans.replied).map Prod.fst).Nodup := by
      intro i
      obtain ⟨a, h1, h2⟩ := hreplied i
      obtain ⟨y, hy⟩ := hpend i
      rw [h1, List.map_append, ← h2, List.map_append, List.nodup_iff_count]
      intro c
      have h3 := (hinv i).once c
      have h4 := (hinv i).calls c
      have h5 : (((pend i).map Ans.replied).map Prod.fst).count c ≤ ((n.cl i).wire.map Prod.fst).count c := by
        rw [hy, List.count_append, List.map_map]
        exact Nat.le_add_right _ _
      have h6 : (((n.cl i).wire.map wireFl).map Prod.fst).count (some c) = ((n.cl i).wire.map Prod.fst).count c := by
        generalize (n.cl i).wire = ws
        induction ws with
        | nil => rfl
        | cons x ws ih => simp only [List.map_cons, List.count_cons, ih, wireFl]; simp
      simp only [allCalls, flights, List.map_append, List.count_append, h6] at h3 h4 ⊢
      cases hp : (n.cl i).phase c <;> simp only [hp, Phase.w, Phase.d] at h3 h4 <;> omega
    rw [List.map_map]
    clear hreplied hmsg hgood
    induction h with
    | nil => exact List.nodup_nil
    | cons a h ih =>
      rw [List.map_cons, List.nodup_cons]
      refine ⟨?_, ih ?_⟩
      · intro hm
        obtain ⟨a', ha', heq⟩ := List.mem_map.1 hm
        simp only [Function.comp_apply, Prod.mk.injEq] at heq
        have := hnd a.made.client
        rw [List.filter_cons_of_pos (by simp), List.map_cons, List.map_cons, List.nodup_cons] at this
        exact this.1 (List.mem_map.2 ⟨a'.replied, List.mem_map.2 ⟨a', List.mem_filter.2 ⟨ha', by simp [heq.1]⟩, rfl⟩, heq.2⟩)
      · intro i
        have := hnd i
        by_cases hai : a.made.client = i
        · rw [List.filter_cons_of_pos (by simp [hai]), List.map_cons, List.map_cons, List.nodup_cons] at this
          exact this.2
        · rw [List.filter_cons_of_neg (by simp [hai])] at this
          exact this
  · intro i
    obtain ⟨a, h1, h2⟩ := hreplied i
    obtain ⟨y, hy⟩ := hpend i
    refine ⟨y, ?_⟩
    have e1 : ((h.map Ans.made).filter fun e => e.client = i) = (a ++ pend i).map Ans.made := by rw [← h1, List.filter_map]; rfl
    rw [e1, hfifo i, h2]
    simp only [List.map_append]
    rw [hy]
    simp [Ans.replied, Function.comp_def]
  · intro e he
    obtain ⟨a, ha, rfl⟩ := List.mem_map.1 he
    refine ⟨fun hid => ?_, hmsg a ha⟩
    have := hmsg a ha
    rw [(hinv _).idle _ hid] at this
    cases this
  · intro i c b hc
    obtain ⟨q, hq⟩ := (hinv i).done c b hc
    obtain ⟨as, h1, h2⟩ := hreplied i
    rw [h2] at hq
    obtain ⟨a, ha, heq⟩ := List.mem_map.1 hq
    obtain ⟨ha, hai⟩ := List.mem_filter.1 (by rw [h1]; exact List.mem_append_left _ ha : a ∈ h.filter fun a => a.made.client = i)
    simp only [Ans.replied, Prod.mk.injEq] at heq
    refine ⟨a.made, List.mem_map.2 ⟨a, ha, rfl⟩, by simpa using hai, heq.1, fun spare => ?_⟩
    have hg := hgood a ha
    rw [← heq.2.2]
    cases ho : a.made.out with
    | ok r =>
      rw [ho] at hg
      exact (C35_call_results a.made.msg spare a.tag).1 r hg.1 hg.2
    | error x =>
      rw [ho] at hg
      exact (C35_call_results a.made.msg spare a.tag).2 x hg

theorem aInv_calls {host : Host ω H} {user : GoString} {o0 : Nat → Obj H} {w0 : ω} {ls : List (BLabel ω H)} {n : Busy ω H} {h : List Ans}
    {o : Nat → Obj H} {w1 : ω} {pend : Nat → List Ans} (hi : AInv host user o0 w0 ls n h o w1 pend) :
    ((h.map Ans.made).map fun e => (e.client, e.call)).Nodup ∧
    (∀ i, ((h.map Ans.made).filter fun e => e.client = i).map (fun e => e.call) <+: (n.cl i).written.map Prod.fst) ∧
    (∀ e ∈ h.map Ans.made, (n.cl e.client).phase e.call ≠ .idle ∧ (n.cl e.client).msg e.call = some e.msg) ∧
    ∀ i c b, (n.cl i).phase c = .done b → ∃ e ∈ h.map Ans.made, e.client = i ∧ e.call = c ∧ ∀ spare, callT e.msg spare b = asCall e.msg e.out := by
  refine ans_calls hi.inv hi.replied hi.msg hi.good hi.fifo fun i => ?_
  have hst := hi.stage i
  unfold Stage at hst
  cases hr : (n.con i).running with
  | none => rw [hr] at hst; rw [hst.1]; exact ⟨_, rfl⟩
  | some p =>
    rw [hr] at hst
    cases p with
    | ret r =>
      obtain ⟨-, c, y, t, m, out, s2, s3, -⟩ := hst
      rw [s2, s3]; exact ⟨_, rfl⟩
    | panic => exact hst.elim
    | call x k => rw [hst.1]; exact ⟨_, rfl⟩

/-- **C94, partial** Overlapping requests are atomic as long as, while the server is in the middle of a request (the
operating system has been called for it and will be called again), nobody else uses the operating system.  Then at any
moment `n` there is a list `h` of calls of all clients, each call at most once, such that calling the methods of the
file servers directly, one after the other, in this order, explains the outcomes of all calls that have returned; later,
at `n'`, the list is `h ++ t`, so it respects real time, and it keeps the calls of each client in the order in which
their requests were written.  In between other processes make the changes that they make in the execution, no others.
The file servers and the world are what this order leads to,
up to requests that are being worked on.  Missing are the executions in which requests disturb each other. -/
theorem C94_atomic_partial {host : Host ω H} (hh : host.Short) {user : GoString} (hu : user.length < 2 ^ 13) (root : GoString) (w : ω)
    (n n' : Busy ω H) (ls ls' : List (BLabel ω H)) (he : Calm host user [] (Busy.start root w) ls n) (he' : Calm host user ls n ls' n')
    (hf : BFit Ordinary n') :
    ∃ h t o w1 o' w1', Direct (ufs host user) (fun _ => newObj root) w (madeByOthers ls) h o w1 ∧
      Direct (ufs host user) o w1 (madeByOthers ls') t o' w1' ∧
      ((h ++ t).map fun e => (e.client, e.call)).Nodup ∧
      (∀ i, ((h ++ t).filter fun e => e.client = i).map (fun e => e.call) <+: (n'.cl i).written.map Prod.fst) ∧
      (∀ e ∈ h, (n.cl e.client).phase e.call ≠ .idle) ∧
      (∀ e ∈ h ++ t, (n'.cl e.client).phase e.call ≠ .idle ∧ (n'.cl e.client).msg e.call = some e.msg) ∧
      (∀ i c b, (n.cl i).phase c = .done b → ∃ e ∈ h, e.client = i ∧ e.call = c ∧ ∀ spare, callT e.msg spare b = asCall e.msg e.out) ∧
      (∀ i c b, (n'.cl i).phase c = .done b → ∃ e ∈ h ++ t, e.client = i ∧ e.call = c ∧ ∀ spare, callT e.msg spare b = asCall e.msg e.out) ∧
      (∀ i, (n'.con i).running = none → o' i = (n'.con i).obj) ∧
      ((∀ i, ¬ Halfway (ls ++ ls') n' i) → w1' = n'.world) := by
  have hfn : BFit Ordinary n := by
    have hfr : ∀ {l0 : List (BLabel ω H)} {a b : Busy ω H} {bs : List (BLabel ω H)}, (∀ i, Fresh (a.cl i)) → Calm host user l0 a bs b → (∀ i, Fresh (b.cl i)) ∧
        ∀ i c m, (a.cl i).msg c = some m → (b.cl i).msg c = some m := by
      intro l0 a b bs h0 h
      induction h with
      | refl => exact ⟨h0, fun _ _ _ hm => hm⟩
      | step _ hs _ ih => exact ⟨(busy_fresh ih.1 hs).1, fun i c m hm => (busy_fresh ih.1 hs).2 i c m (ih.2 i c m hm)⟩
    exact fun i c m hm => hf i c m ((hfr (hfr (fun _ _ _ => rfl) he).1 he').2 i c m hm)
  obtain ⟨-, h, o, w1, pend, hi, -⟩ := atomic_exec hh hu (aInv_start host user root w) he hfn
  rw [List.nil_append, List.nil_append] at hi
  obtain ⟨-, t, o', w1', pend', hi', hx⟩ := atomic_exec hh hu hi he' hf
  have a := aInv_calls hi
  have b := aInv_calls hi'
  rw [List.map_append] at b
  refine ⟨h.map Ans.made, t.map Ans.made, o, w1, o', w1', hi.direct, by simpa using hx _ _ _ _ .nil, b.1, b.2.1, fun e he => (a.2.2.1 e he).1, b.2.2.1, a.2.2.2, b.2.2.2,
    fun i hr => ?_, hi'.world⟩
  have := hi'.stage i
  unfold Stage at this
  rw [hr] at this
  exact this.2

/-! ### requests that make at most one call of the operating system -/

/-- The requests for which the server calls the operating system at most once: all but Tcreate, a walk of several names,
the remove of an open file, the first read of a directory, and a wstat with a name, with times, or with mode and length. -/
def Brief (o : Obj H) : TMsg → Prop
  | .create _ => False
  | .walk p => p.Paths.length ≤ 1
  | .remove p => ∀ f, o.files p.OFID = some f → f.file = none
  | .read p => p.Off ≠ 0 ∨ ∀ f, o.files p.OFID = some f → f.qid.Typ &&& QTDIR = 0
  | .wstat p => ∀ d t b, unmarshaldir (Buffer.ofBytes p.B) = .done d t none b →
      d.Name = [] ∧ d.Mtime = 0xFFFFFFFF ∧ d.Atime = 0xFFFFFFFF ∧ (d.Mode = 0xFFFFFFFF ∨ d.Length = 0xFFFFFFFFFFFFFFFF)
  | _ => True

theorem map_done {P : Type} {u : Unm P} {f : P → TMsg} {m : TMsg} {t : Tag} {e : Option DecErr} {b : Buffer} (h : u.map f = .done m t e b) :
    ∃ p, u = .done p t e b ∧ f p = m := by
  cases u with
  | panic => cases h
  | done p t' e' b' => cases h; exact ⟨p, rfl, rfl⟩

theorem brief_once (user : GoString) {m : TMsg} {o : Obj H} {t : Tag} (spare : Bytes) (hb : Brief o m) (hf : m.Fits) (hl : (m.packet t).length < 2 ^ 32) :
    (pdispatch user o true ⟨[], (m.packet t).drop 5, spare⟩ ((m.packet t).getD 4 0)).AtMost 1 := by
  obtain ⟨-, h2, h3⟩ := packet_framing m t hl
  have hd := (lawsT m).fwd hf [] spare t
  rw [h2, h3]
  generalize (⟨[], m.body t, spare⟩ : Buffer) = buf at hd ⊢
  have table : pdispatch user o true buf m.ty = pdispatchTable user o true buf m.ty := by
    unfold pdispatch
    split
    · rfl
    · rw [if_neg (by simp)]
  rw [table]
  cases m with
  | version p => exact atMost_srv _ _ _ _ _ _ _ fun p' _ _ _ _ => (atMost_version _ _ o).mono (Nat.zero_le _)
  | attach p => exact atMost_srv _ _ _ _ _ _ _ fun p' _ _ _ _ => atMost_attach _ _ _ _ o
  | flush p => exact atMost_srv _ _ _ _ _ _ _ fun p' _ _ _ _ => atMost_ret _ _
  | open_ p => exact atMost_srv _ _ _ _ _ _ _ fun p' _ _ _ _ => atMost_open _ _ o
  | clunk p => exact atMost_srv _ _ _ _ _ _ _ fun p' _ _ _ _ => atMost_clunk _ o
  | stat p => exact atMost_srv _ _ _ _ _ _ _ fun p' _ _ _ _ => atMost_stat _ _ o
  | write p => exact atMost_srv _ _ _ _ _ _ _ fun p' _ _ _ _ => atMost_write _ _ _ o
  | create p => exact hb.elim
  | walk p =>
    obtain ⟨p', h1, h2⟩ := map_done hd
    cases h2
    refine atMost_srv _ _ _ _ _ _ _ fun p1 _ _ _ h => ?_
    rw [h1] at h
    cases h
    exact (atMost_walk _ _ _ o).mono hb
  | remove p =>
    obtain ⟨p', h1, h2⟩ := map_done hd
    cases h2
    refine atMost_srv _ _ _ _ _ _ _ fun p1 _ _ _ h => ?_
    rw [h1] at h
    cases h
    unfold premove
    cases hfile : o.files p.OFID with
    | none => exact atMost_ret _ _
    | some f =>
      dsimp only
      refine (atMost_bind (m := 0) (n := 1) ?_ fun o => atMost_call (n := 0) fun r => ?_).mono (by omega)
      · unfold pclunkFile
        rw [hb f hfile]
        exact atMost_ret _ _
      · cases r <;> exact atMost_ret _ _
  | read p =>
    obtain ⟨p', h1, h2⟩ := map_done hd
    cases h2
    refine atMost_srv _ _ _ _ _ _ _ fun p1 _ _ _ h => ?_
    rw [h1] at h
    cases h
    unfold pread
    cases hfile : o.files p.OFID with
    | none => exact atMost_ret _ _
    | some f =>
      dsimp only
      cases f.file with
      | none => exact atMost_ret _ _
      | some h =>
        dsimp only
        by_cases hdir : f.qid.Typ &&& QTDIR ≠ 0
        · rw [if_pos hdir]
          rcases hb with hb | hb
          · rw [if_neg hb]; exact atMost_readDir _ _ _ _ _ _
          · exact absurd (hb f hfile) hdir
        · rw [if_neg hdir]
          split
          · exact atMost_panic _
          · refine atMost_call (n := 0) fun r => ?_
            obtain ⟨d, r⟩ := r
            cases r <;> exact atMost_ret _ _
  | wstat p =>
    obtain ⟨p', h1, h2⟩ := map_done hd
    cases h2
    refine atMost_srv _ _ _ _ _ _ _ fun p1 _ _ _ h => ?_
    rw [h1] at h
    cases h
    refine atMost_wstatOf _ _ o 1 fun d t b1 hu => ?_
    obtain ⟨e1, e2, e3, e4⟩ := hb d t b1 hu
    unfold wstatCalls
    rw [if_neg (c := d.Name ≠ []) (by simp [e1]), if_neg (c := d.Mtime ≠ 0xFFFFFFFF ∨ d.Atime ≠ 0xFFFFFFFF) (by simp [e2, e3])]
    by_cases c1 : d.Mode = 0xFFFFFFFF
    · by_cases c2 : d.Length = 0xFFFFFFFFFFFFFFFF
      · simp [c1, c2]; split <;> omega
      · simp [c1, c2, wstatChanges]
    · have c2 : d.Length = 0xFFFFFFFFFFFFFFFF := by
        rcases e4 with h | h
        · exact absurd h c1
        · exact h
      simp [c1, c2, wstatChanges]

/-- the executions in which the server takes only requests of this kind -/
inductive BriefRun (host : Host ω H) (user : GoString) (n : Busy ω H) : List (BLabel ω H) → Busy ω H → Prop
  | refl : BriefRun host user n [] n
  | step {ls l n1 n2} : BriefRun host user n ls n1 → BStep host user l n1 n2 →
      (∀ i c q y m, l = .start i → (n1.cl i).wire = (c, q) :: y → (n1.cl i).msg c = some m → Brief (n1.con i).obj m) →
      BriefRun host user n (ls ++ [l]) n2

/-- no connection is ever in the middle of a request -/
def Short1 (ls : List (BLabel ω H)) (n : Busy ω H) : Prop :=
  ∀ i p, (n.con i).running = some p → p.AtMost (if begun i ls then 0 else 1)

theorem short_calm {ls : List (BLabel ω H)} {n : Busy ω H} (h : Short1 ls n) (i : Nat) : ¬ Halfway ls n i := by
  rintro ⟨hb, x, k, hr⟩
  have h1 := h i _ hr
  rw [hb] at h1
  obtain ⟨m, hm, -⟩ := atMost_call_inv h1 x.noAns
  exact absurd hm (by simp)

theorem short_step {host : Host ω H} {user : GoString} {ls : List (BLabel ω H)} {n n' : Busy ω H} {l : BLabel ω H} (h : Short1 ls n)
    (hinv : ∀ i, Inv (n.cl i)) (hf : BFit Ordinary n) (hs : BStep host user l n n')
    (hb : ∀ i c q y m, l = .start i → (n.cl i).wire = (c, q) :: y → (n.cl i).msg c = some m → Brief (n.con i).obj m) : Short1 (ls ++ [l]) n' := by
  intro j p hr
  rw [begun_snoc]
  cases hs with
  | other _ w => exact h j p hr
  | client _ i l cl' _ _ _ => exact h j p hr
  | start _ i c q y spare hw hn =>
    dsimp only at hr ⊢
    by_cases hj : j = i
    · subst hj
      rw [upd_same] at hr
      cases hr
      obtain ⟨m, t, -, hm, hq⟩ := (hinv j).wire (c, q) (by simp [hw])
      dsimp only at hm hq
      subst hq
      obtain ⟨-, hmf, hml⟩ := hf j c m hm
      simpa using brief_once user spare (hb j c _ y m rfl hw hm) hmf (hml t)
    · rw [upd_other _ _ hj] at hr
      simpa [Ne.symm hj] using h j p hr
  | call _ i x k hc =>
    dsimp only at hr ⊢
    by_cases hj : j = i
    · subst hj
      rw [upd_same] at hr
      cases hr
      have h1 := h j _ hc
      obtain ⟨m, hm, h2⟩ := atMost_call_inv h1 (host.exec x n.world).2
      have : m = 0 := by split at hm <;> omega
      subst this
      simpa using h2
    · rw [upd_other _ _ hj] at hr
      simpa [Ne.symm hj] using h j p hr
  | reply _ i c q y o v b hw hc =>
    dsimp only at hr ⊢
    by_cases hj : j = i
    · subst hj
      rw [upd_same] at hr
      cases hr
    · rw [upd_other _ _ hj] at hr
      simpa [Ne.symm hj] using h j p hr

theorem brief_fresh {host : Host ω H} {user : GoString} {n n' : Busy ω H} {ls : List (BLabel ω H)} (h0 : ∀ i, Fresh (n.cl i))
    (h : BriefRun host user n ls n') : (∀ i, Fresh (n'.cl i)) ∧ ∀ i c m, (n.cl i).msg c = some m → (n'.cl i).msg c = some m := by
  induction h with
  | refl => exact ⟨h0, fun _ _ _ hm => hm⟩
  | step _ hs _ ih => exact ⟨(busy_fresh ih.1 hs).1, fun i c m hm => (busy_fresh ih.1 hs).2 i c m (ih.2 i c m hm)⟩

theorem brief_calm {host : Host ω H} (hh : host.Short) {user : GoString} (hu : user.length < 2 ^ 13) {o0 : Nat → Obj H} {w0 : ω}
    {ls ls' : List (BLabel ω H)} {n n' : Busy ω H} {h : List Ans} {o : Nat → Obj H} {w1 : ω} {pend : Nat → List Ans}
    (hi : AInv host user o0 w0 ls n h o w1 pend) (hfr : ∀ i, Fresh (n.cl i)) (hsh : Short1 ls n) (he : BriefRun host user n ls' n') (hf : BFit Ordinary n') :
    Calm host user ls n ls' n' ∧ Short1 (ls ++ ls') n' ∧ (∀ i, Fresh (n'.cl i)) ∧ BFit Ordinary n := by
  induction he with
  | refl => exact ⟨.refl, by rwa [List.append_nil], hfr, hf⟩
  | @step ls1 l n1 n2 he hs hb ih =>
    have hfr1 := (brief_fresh hfr he).1
    have hf1 : BFit Ordinary n1 := fun i c m hm => hf i c m ((busy_fresh hfr1 hs).2 i c m hm)
    obtain ⟨hc, hs1, -, hfn⟩ := ih hf1
    obtain ⟨-, t, o', w1', pend', hi', -⟩ := atomic_exec hh hu hi hc hf1
    refine ⟨.step hc hs fun i hh => absurd hh (short_calm hs1 i), ?_, (busy_fresh hfr1 hs).1, hfn⟩
    rw [← List.append_assoc]
    exact short_step hs1 hi'.inv hf1 hs hb

/-- **C94, partial** Requests that call the operating system at most once are atomic however they overlap, and whatever
other processes do: the conclusion of `C94_atomic_partial` holds, and the world is the one that the order leads to. -/
theorem C94_brief_partial {host : Host ω H} (hh : host.Short) {user : GoString} (hu : user.length < 2 ^ 13) (root : GoString) (w : ω)
    (n n' : Busy ω H) (ls ls' : List (BLabel ω H)) (he : BriefRun host user (Busy.start root w) ls n) (he' : BriefRun host user n ls' n')
    (hf : BFit Ordinary n') :
    ∃ h t o w1 o', Direct (ufs host user) (fun _ => newObj root) w (madeByOthers ls) h o w1 ∧
      Direct (ufs host user) o w1 (madeByOthers ls') t o' n'.world ∧
      ((h ++ t).map fun e => (e.client, e.call)).Nodup ∧
      (∀ i, ((h ++ t).filter fun e => e.client = i).map (fun e => e.call) <+: (n'.cl i).written.map Prod.fst) ∧
      (∀ e ∈ h, (n.cl e.client).phase e.call ≠ .idle) ∧
      (∀ e ∈ h ++ t, (n'.cl e.client).phase e.call ≠ .idle ∧ (n'.cl e.client).msg e.call = some e.msg) ∧
      (∀ i c b, (n.cl i).phase c = .done b → ∃ e ∈ h, e.client = i ∧ e.call = c ∧ ∀ spare, callT e.msg spare b = asCall e.msg e.out) ∧
      (∀ i c b, (n'.cl i).phase c = .done b → ∃ e ∈ h ++ t, e.client = i ∧ e.call = c ∧ ∀ spare, callT e.msg spare b = asCall e.msg e.out) ∧
      (∀ i, (n'.con i).running = none → o' i = (n'.con i).obj) := by
  have h0 : ∀ i, Fresh ((Busy.start (H := H) root w).cl i) := fun _ _ _ => rfl
  have h1 := brief_fresh h0 he
  have hfn : BFit Ordinary n := fun i c m hm => hf i c m ((brief_fresh h1.1 he').2 i c m hm)
  have hsh : Short1 [] (Busy.start (H := H) root w) := fun i p hr => by cases hr
  obtain ⟨c1, s1, f1, -⟩ := brief_calm hh hu (aInv_start host user root w) h0 hsh he hfn
  rw [List.nil_append] at s1
  obtain ⟨-, h, o, w1, pend, hi, -⟩ := atomic_exec hh hu (aInv_start host user root w) c1 hfn
  rw [List.nil_append, List.nil_append] at hi
  obtain ⟨c2, s2, -, -⟩ := brief_calm hh hu hi f1 s1 he' hf
  obtain ⟨h, t, o, w1, o', w1', a1, a2, a3, a3', a4, a5, a6, a7, a8, a9⟩ := C94_atomic_partial hh hu root w n n' ls ls' c1 c2 hf
  rw [a9 (short_calm s2)] at a2
  exact ⟨h, t, o, w1, o', a1, a2, a3, a3', a4, a5, a6, a7, a8⟩

theorem brief_all {host : Host ω H} {user : GoString} {n n' : Busy ω H} {ls : List (BLabel ω H)} (h0 : ∀ i, Fresh (n.cl i)) (he : BExec host user n ls n')
    (hb : ∀ i c m, (n'.cl i).msg c = some m → ∀ o : Obj H, Brief o m) : BriefRun host user n ls n' := by
  have hfr : ∀ {a b : Busy ω H} {bs : List (BLabel ω H)}, (∀ i, Fresh (a.cl i)) → BExec host user a bs b → ∀ i, Fresh (b.cl i) := by
    intro a b bs h0 h
    induction h with
    | refl => exact h0
    | step _ hs ih => exact (busy_fresh ih hs).1
  induction he with
  | refl => exact .refl
  | step he hs ih =>
    have hm := (busy_fresh (hfr h0 he) hs).2
    have ih := ih fun i c m h => hb i c m (hm i c m h)
    exact .step ih hs fun i c q y m _ _ h => hb i c m (hm i c m h) _

/-- overlapping attaches of two clients (`busy_instance`) are an instance of `C94_brief_partial` -/
example : ∃ n ls b b', BriefRun Mem.shortHost (lit "harvey") (Busy.start [47, 120] Mem.world0) ls n ∧ BFit Ordinary n ∧
    (n.cl 0).phase 0 = .done b ∧ (n.cl 1).phase 0 = .done b' := by
  obtain ⟨n, ls, b, b', h1, h2, h3, h4⟩ := busy_instance
  refine ⟨n, ls, b, b', brief_all (fun _ _ _ => rfl) h1 fun i c m hm o => ?_, attach_fits h2, h3, h4⟩
  rw [h2 i c m hm]
  exact trivial

/-! ### requests that disturb each other -/

/-- methods called directly, one after the other, with nothing in between -/
inductive InOrder (ns : NineServer (Ufs.State ω H)) : (Nat → Obj H) → ω → List Made → Prop
  | nil (o w) : InOrder ns o w []
  | ok {o w t} (i c : Nat) (m : TMsg) {s' r} : Spec.call ns m ((o i).into w) = .ok s' r → InOrder ns (upd o i s'.obj) s'.world t →
      InOrder ns o w (⟨i, c, m, .ok r⟩ :: t)
  | err {o w t} (i c : Nat) (m : TMsg) {s' e} : Spec.call ns m ((o i).into w) = .err s' e → InOrder ns (upd o i s'.obj) s'.world t →
      InOrder ns o w (⟨i, c, m, .error e⟩ :: t)

theorem init_two_tags : ∃ ts, init.tags = 1 :: 2 :: ts := by
  have key : ∀ n, 1 < n → ∃ ts, (List.range n).map (fun i => UInt16.ofNat (i + 1)) = 1 :: 2 :: ts := by
    intro n hn
    obtain ⟨m, rfl⟩ : ∃ m, n = m + 2 := ⟨n - 2, by omega⟩
    rw [List.range_succ_eq_map, List.range_succ_eq_map]
    simp
  unfold init
  dsimp only
  exact key _ (by simp [NOTAG])

/-- client `i` makes call `k`, and nobody else does anything until it returns -/
theorem busy_whole {host : Host ω H} {user : GoString} {i k : Nat} {t : Tag} {ts : List Tag} {o : Obj H} {v : Bool} {b : Buffer} {w' : ω} (j : Nat)
    (n : Busy ω H) (h : Ready (n.cl i) k) (ht : (n.cl i).tags = t :: ts) (m : TMsg) (hr : (n.con i).running = none)
    (ho : progSteps host j (reqProg user (n.con i).obj m t) n.world = (.ret (o, v, b), w')) (hp : pktTag b.bytes = t) (h1 : ¬ t < 1)
    (h2 : ¬ t.toNat - 1 ≥ NumTags) (h3 : ts.length < NumTags) :
    ∃ n', Goes host user n n' ∧ n'.con i = { obj := o } ∧ (∀ j, j ≠ i → n'.con j = n.con j) ∧ n'.world = w' ∧ (∀ j, j ≠ i → n'.cl j = n.cl j) ∧
      Ready (n'.cl i) (k + 1) ∧ (n'.cl i).phase k = .done b.bytes ∧ (n'.cl i).tags = ts ++ [t] ∧ (n'.cl i).msg = upd (n.cl i).msg k (some m) ∧
      ∀ c, c ≠ k → (n'.cl i).phase c = (n.cl i).phase c := by
  obtain ⟨n1, g1, a1, a2, a3, a4, a5, a6, a7⟩ := busy_ask (host := host) (user := user) n h ht m
  obtain ⟨n2, g2, b1, b2, b3, b4⟩ := busy_begin (host := host) (user := user) j n1 a4 (by rw [a1]; exact hr)
  rw [a1, a2, ho] at b3 b4
  obtain ⟨n3, g3, c1, c2, c3, c4, c5, c6, c7, c8⟩ := busy_tell (host := host) (user := user) n2 (by rw [b1]; exact a4) (by rw [b4]) hp h1 h2
    (by rw [b1, a5]; exact h3)
  refine ⟨n3, (g1.trans g2).trans g3, by rw [c1, upd_same], fun j hj => by rw [c1, upd_other _ _ hj, b2 j hj, a1], by rw [c2, b3],
    fun j hj => by rw [c3 j hj, b1, a3 j hj], c4, c5, by rw [c6, b1, a5], by rw [c7, b1, a6], fun c hc => by rw [c8 c hc, b1, a7 c hc]⟩

/-- the requests of the counterexample: the first two give client 0 a fid of the directory "/x" and client 1 a fid of the file
"/x/f"; then client 0 creates "f", which is there already, while client 1 removes it -/
def attachDir : TMsg := .attach { SFID := 0, AFID := 0xFFFFFFFF }
def attachFile : TMsg := .attach { SFID := 0, AFID := 0xFFFFFFFF, Aname := [102] }
def createF : TMsg := .create { OFID := 0, Name := [102], CreatePerm := 0o644, Omode := 2 }
def removeF : TMsg := .remove { OFID := 0 }

theorem race_facts : ∃ o0 v0 b0 o1 v1 b1, progSteps Mem.shortHost 1 (reqProg (lit "harvey") (newObj [47, 120]) attachDir 1) Mem.world0 = (.ret (o0, v0, b0), Mem.world0) ∧
    pktTag b0.bytes = 1 ∧
    progSteps Mem.shortHost 1 (reqProg (lit "harvey") (newObj [47, 120]) attachFile 1) Mem.world0 = (.ret (o1, v1, b1), Mem.world0) ∧ pktTag b1.bytes = 1 ∧
    (∃ p w1 o2 v2 b2 w2 o3 v3 b3 w3, progSteps Mem.shortHost 1 (reqProg (lit "harvey") o0 createF 2) Mem.world0 = (p, w1) ∧
      progSteps Mem.shortHost 1 (reqProg (lit "harvey") o1 removeF 2) w1 = (.ret (o2, v2, b2), w2) ∧ pktTag b2.bytes = 2 ∧
      progSteps Mem.shortHost 1 p w2 = (.ret (o3, v3, b3), w3) ∧ pktTag b3.bytes = 2 ∧ b3.bytes = (RMsg.error ⟨lit "does not exist"⟩).packet 2) ∧
    (∃ s r, Spec.call (ufs Mem.shortHost (lit "harvey")) createF (o0.into Mem.world0) = .ok s r) ∧
    (∃ s r, Spec.call (ufs Mem.shortHost (lit "harvey")) removeF (o1.into Mem.world0) = .ok s r ∧
      ∃ s' r', Spec.call (ufs Mem.shortHost (lit "harvey")) createF (o0.into s.world) = .ok s' r') := by
  refine ⟨_, _, _, _, _, _, rfl, by decide, rfl, by decide, ⟨_, _, _, _, _, _, _, _, _, _, rfl, rfl, by decide, rfl, by decide, by decide⟩, ⟨_, _, rfl⟩, _, _, rfl, _, _, rfl⟩

/-- in every order of `createF` by client 0 and `removeF` by client 1 the create succeeds -/
theorem race_order {o : Nat → Obj Nat} {o0 o1 : Obj Nat} (h0 : o 0 = o0) (h1 : o 1 = o1)
    (c1 : ∃ s r, Spec.call (ufs Mem.shortHost (lit "harvey")) createF (o0.into Mem.world0) = .ok s r)
    (c2 : ∃ s r, Spec.call (ufs Mem.shortHost (lit "harvey")) removeF (o1.into Mem.world0) = .ok s r ∧
      ∃ s' r', Spec.call (ufs Mem.shortHost (lit "harvey")) createF (o0.into s.world) = .ok s' r')
    {t : List Made} (ht : InOrder (ufs Mem.shortHost (lit "harvey")) o Mem.world0 t) (hn : (t.map fun e => (e.client, e.call)).Nodup)
    (hm : ∀ e ∈ t, e.call = 1 ∧ (e.client = 0 ∧ e.msg = createF ∨ e.client = 1 ∧ e.msg = removeF)) :
    ∀ e ∈ t, e.client = 0 → ∃ r, e.out = .ok r := by
  obtain ⟨s1, r1, c1⟩ := c1
  obtain ⟨s2, r2, c2, s3, r3, c3⟩ := c2
  -- the first call that client 0 makes is its only one
  have only : ∀ (e : Made) (t' : List Made), e.client = 0 → e.call = 1 → (∃ r, e.out = .ok r) → ((e :: t').map fun e => (e.client, e.call)).Nodup →
      (∀ e ∈ t', e.call = 1) → ∀ x ∈ e :: t', x.client = 0 → ∃ r, x.out = .ok r := by
    intro e t' he1 he2 ho hn hc x hx hx0
    rcases List.mem_cons.1 hx with rfl | hx
    · exact ho
    · rw [List.map_cons, List.nodup_cons] at hn
      exact absurd (List.mem_map.2 ⟨x, hx, by rw [hx0, he1, he2, hc x hx]⟩) hn.1
  cases ht with
  | nil => intro e he; cases he
  | @ok _ _ t i c m s' r hc ht =>
    obtain ⟨e1, e2⟩ := hm _ (List.mem_cons_self ..)
    dsimp only at e1 e2
    rcases e2 with ⟨rfl, rfl⟩ | ⟨rfl, rfl⟩
    · exact only _ _ rfl e1 ⟨r, rfl⟩ hn fun e he => (hm e (List.mem_cons_of_mem _ he)).1
    · rw [h1, c2] at hc
      cases hc
      intro x hx hx0
      rcases List.mem_cons.1 hx with rfl | hx
      · cases hx0
      · have hn2 := hn
        rw [List.map_cons, List.nodup_cons] at hn
        cases ht with
        | nil => cases hx
        | @ok _ _ t2 i' c' m' s'' r' hc' ht' =>
          obtain ⟨e3, e4⟩ := hm _ (List.mem_cons_of_mem _ (List.mem_cons_self ..))
          dsimp only at e3 e4
          rcases e4 with ⟨rfl, rfl⟩ | ⟨rfl, rfl⟩
          · exact only _ _ rfl e3 ⟨r', rfl⟩ hn.2 (fun e he => (hm e (List.mem_cons_of_mem _ (List.mem_cons_of_mem _ he))).1) x hx hx0
          · exact absurd (List.mem_map.2 ⟨_, List.mem_cons_self .., by dsimp only; rw [e1, e3]⟩) hn.1
        | @err _ _ t2 i' c' m' s'' r' hc' ht' =>
          obtain ⟨e3, e4⟩ := hm _ (List.mem_cons_of_mem _ (List.mem_cons_self ..))
          dsimp only at e3 e4
          rcases e4 with ⟨rfl, rfl⟩ | ⟨rfl, rfl⟩
          · rw [upd_other _ _ (by decide), h0, c3] at hc'
            cases hc'
          · exact absurd (List.mem_map.2 ⟨_, List.mem_cons_self .., by dsimp only; rw [e1, e3]⟩) hn.1
  | @err _ _ t i c m s' r hc ht =>
    obtain ⟨e1, e2⟩ := hm _ (List.mem_cons_self ..)
    dsimp only at e1 e2
    rcases e2 with ⟨rfl, rfl⟩ | ⟨rfl, rfl⟩
    · rw [h0, c1] at hc; cases hc
    · rw [h1, c2] at hc; cases hc

/-- **C94, counterexample** Requests that overlap are not atomic: no other process uses the operating system, two clients
have each one call under way, nothing was under way before; and the outcomes of the two calls are not those of either
order.  Client 0 creates a file that is there while client 1 removes it: the create fails with "does not exist", although in
both orders it succeeds. -/
theorem C94_counterexample : ∃ (n n' : Busy Mem.World Nat) (ls ls' : List (BLabel Mem.World Nat)),
    BExec Mem.shortHost (lit "harvey") (Busy.start [47, 120] Mem.world0) ls n ∧ Inside ls ∧ BExec Mem.shortHost (lit "harvey") n ls' n' ∧ Inside ls' ∧
    BFit Ordinary n' ∧ (∀ i, (n.con i).running = none) ∧ (∀ i c, (n.cl i).phase c = .idle ∨ ∃ b, (n.cl i).phase c = .done b) ∧
    ¬ ∃ t, InOrder (ufs Mem.shortHost (lit "harvey")) (fun i => (n.con i).obj) n.world t ∧ (t.map fun e => (e.client, e.call)).Nodup ∧
      (∀ e ∈ t, (n.cl e.client).phase e.call = .idle ∧ (n'.cl e.client).msg e.call = some e.msg) ∧
      ∀ i c b, (n.cl i).phase c = .idle → (n'.cl i).phase c = .done b → ∃ e ∈ t, e.client = i ∧ e.call = c ∧ ∀ spare, callT e.msg spare b = asCall e.msg e.out := by
  obtain ⟨o0, v0, b0, o1, v1, b1, f1, f2, f3, f4, ⟨p, w1, o2, v2, b2, w2, o3, v3, b3, w3, f5, f6, f7, f8, f9, f10⟩, f11, f12⟩ := race_facts
  obtain ⟨ts, hts⟩ := init_two_tags
  have hlen := init_tags_length hts
  obtain ⟨n1, g1, a1, a2, a3, a4, a5, a6, a7, a8, a9⟩ := busy_whole (host := Mem.shortHost) (user := lit "harvey") (i := 0) 1
    (Busy.start [47, 120] Mem.world0) init_ready hts attachDir rfl f1 f2 (by decide) (by decide) hlen
  obtain ⟨n2, g2, c1, c2, c3, c4, c5, c6, c7, c8, c9⟩ := busy_whole (host := Mem.shortHost) (user := lit "harvey") (i := 1) (k := 0) (t := 1) 1 n1
    (by rw [a4 1 (by decide)]; exact init_ready) (by rw [a4 1 (by decide)]; exact hts) attachFile (by rw [a2 1 (by decide)]; rfl)
    (by rw [a2 1 (by decide), a3]; exact f3) f4 (by decide) (by decide) hlen
  have r0 : Ready (n2.cl 0) 1 := by rw [c4 0 (by decide)]; exact a5
  have t0 : (n2.cl 0).tags = 2 :: (ts ++ [1]) := by rw [c4 0 (by decide), a7]; rfl
  have hlen2 : (ts ++ [1]).length < NumTags := by rw [List.length_append]; exact hlen
  obtain ⟨n3, g3, d1, d2, d3, d4, d5, d6, d7⟩ := busy_ask (host := Mem.shortHost) (user := lit "harvey") (i := 0) n2 r0 t0 createF
  obtain ⟨n4, g4, e1, e2, e3, e4, e5, e6, e7⟩ := busy_ask (host := Mem.shortHost) (user := lit "harvey") (i := 1) (k := 1) (t := 2) (ts := ts ++ [1]) n3
    (by rw [d3 1 (by decide)]; exact c5) (by rw [d3 1 (by decide), c7]; rfl) removeF
  have k0 : Asked (n4.cl 0) 1 createF 2 := by rw [e3 0 (by decide)]; exact d4
  have o40 : n4.con 0 = { obj := o0 } := by rw [e1, d1, c2 0 (by decide), a1]
  have o41 : n4.con 1 = { obj := o1 } := by rw [e1, d1, c1]
  have w4 : n4.world = Mem.world0 := by rw [e2, d2, c3]
  obtain ⟨n5, g5, h1, h2, h3, h4⟩ := busy_begin (host := Mem.shortHost) (user := lit "harvey") (i := 0) 1 n4 k0 (by rw [o40])
  rw [o40, w4, f5] at h3 h4
  dsimp only at h3 h4
  obtain ⟨n6, g6, i1, i2, i3, i4⟩ := busy_begin (host := Mem.shortHost) (user := lit "harvey") (i := 1) 1 n5 (by rw [h1]; exact e4) (by rw [h2 1 (by decide), o41])
  rw [h2 1 (by decide), o41, h3, f6] at i3 i4
  dsimp only at i3 i4
  obtain ⟨n7, g7, j1, j2, j3, j4⟩ := busy_more (host := Mem.shortHost) (user := lit "harvey") (i := 0) 1 n6 p (by rw [i2 0 (by decide), h4])
  rw [i3, f8] at j3 j4
  have q0 : n7.cl 0 = n3.cl 0 := by rw [j1, i1, h1, e3 0 (by decide)]
  have q1 : n7.cl 1 = n4.cl 1 := by rw [j1, i1, h1]
  obtain ⟨n8, g8, k1, k2, k3, k4, k5, k6, k7, k8⟩ := busy_tell (host := Mem.shortHost) (user := lit "harvey") (i := 1) (o := o2) (v := v2) (b := b2) n7
    (by rw [q1]; exact e4) (by rw [j2 1 (by decide), i4]) f7 (by decide) (by decide) (by rw [q1, e5]; exact hlen2)
  obtain ⟨n9, g9, l1, l2, l3, l4, l5, l6, l7, l8⟩ := busy_tell (host := Mem.shortHost) (user := lit "harvey") (i := 0) (o := o3) (v := v3) (b := b3) n8
    (by rw [k3 0 (by decide), q0]; exact d4) (by rw [k1, upd_other _ _ (by decide), j4]) f9 (by decide) (by decide)
    (by rw [k3 0 (by decide), q0, d5]; exact hlen2)
  obtain ⟨ls, hin, he⟩ := g1.trans g2
  obtain ⟨ls', hin', he'⟩ := (((((g3.trans g4).trans g5).trans g6).trans g7).trans g8).trans g9
  -- what the clients have asked for
  have m0 : (n9.cl 0).msg = upd (upd init.msg 0 (some attachDir)) 1 (some createF) := by
    rw [l7, k3 0 (by decide), q0, d6, c4 0 (by decide), a8]; rfl
  have m1 : (n9.cl 1).msg = upd (upd init.msg 0 (some attachFile)) 1 (some removeF) := by
    rw [l3 1 (by decide), k7, q1, e6, d3 1 (by decide), c8, a4 1 (by decide)]; rfl
  have mi : ∀ i, i ≠ 0 → i ≠ 1 → n9.cl i = init := fun i h0' h1' => by
    rw [l3 i h0', k3 i h1', j1, i1, h1, e3 i h1', d3 i h0', c4 i h1', a4 i h0']; rfl
  have ph0 : ∀ c, c ≠ 0 → (n2.cl 0).phase c = .idle := fun c hc => by rw [c4 0 (by decide), a9 c hc]; rfl
  have ph1 : ∀ c, c ≠ 0 → (n2.cl 1).phase c = .idle := fun c hc => by rw [c9 c hc, a4 1 (by decide)]; rfl
  have done0 : (n2.cl 0).phase 0 = .done b0.bytes := by rw [c4 0 (by decide)]; exact a6
  have done1 : (n2.cl 1).phase 0 = .done b1.bytes := c6
  refine ⟨n2, n9, ls, ls', he, hin, he', hin', ?_, ?_, ?_, ?_⟩
  · -- they fit
    have fits : ∀ (s : State) (m m' : TMsg), (Ordinary m ∧ m.Fits ∧ ∀ t, (m.packet t).length < 2 ^ 32) → (Ordinary m' ∧ m'.Fits ∧ ∀ t, (m'.packet t).length < 2 ^ 32) →
        s.msg = upd (upd init.msg 0 (some m)) 1 (some m') → CallsFit Ordinary s := by
      intro s m m' hm hm' hs c x hx
      rw [hs] at hx
      by_cases hc : c = 1
      · subst hc; simp [upd] at hx; subst hx; exact hm'
      · by_cases hc0 : c = 0
        · subst hc0; simp [upd] at hx; subst hx; exact hm
        · simp [upd, hc, hc0, init] at hx
    intro i
    by_cases i0 : i = 0
    · subst i0
      exact fits _ _ _ (by simp [attachDir, Ordinary, TMsg.Fits, TMsg.packet, Spec.packet, TMsg.body, TMsg.fields, str])
        (by simp [createF, Ordinary, TMsg.Fits, TMsg.packet, Spec.packet, TMsg.body, TMsg.fields, str]) m0
    · by_cases i1 : i = 1
      · subst i1
        exact fits _ _ _ (by simp [attachFile, Ordinary, TMsg.Fits, TMsg.packet, Spec.packet, TMsg.body, TMsg.fields, str])
          (by simp [removeF, Ordinary, TMsg.Fits, TMsg.packet, Spec.packet, TMsg.body, TMsg.fields, str]) m1
      · rw [mi i i0 i1]
        intro c m hm
        cases hm
  · intro i
    by_cases i1 : i = 1
    · subst i1; rw [c1]
    · rw [c2 i i1]
      by_cases i0 : i = 0
      · subst i0; rw [a1]
      · rw [a2 i i0]; rfl
  · intro i c
    by_cases i1 : i = 1
    · subst i1
      by_cases hc : c = 0
      · subst hc; exact .inr ⟨_, done1⟩
      · exact .inl (ph1 c hc)
    · by_cases i0 : i = 0
      · subst i0
        by_cases hc : c = 0
        · subst hc; exact .inr ⟨_, done0⟩
        · exact .inl (ph0 c hc)
      · rw [c4 i i1, a4 i i0]; exact .inl rfl
  · rintro ⟨t, ht, hn, hm, hr⟩
    rw [c3] at ht
    have hm' : ∀ e ∈ t, e.call = 1 ∧ (e.client = 0 ∧ e.msg = createF ∨ e.client = 1 ∧ e.msg = removeF) := by
      intro e he
      obtain ⟨x1, x2⟩ := hm e he
      by_cases i0 : e.client = 0
      · rw [i0] at x1 x2
        rw [m0] at x2
        by_cases hc : e.call = 0
        · rw [hc, done0] at x1; cases x1
        · by_cases hc1 : e.call = 1
          · rw [hc1, upd_same] at x2
            exact ⟨hc1, .inl ⟨i0, (Option.some.inj x2).symm⟩⟩
          · rw [upd_other _ _ hc1, upd_other _ _ hc] at x2; cases x2
      · by_cases i1 : e.client = 1
        · rw [i1] at x1 x2
          rw [m1] at x2
          by_cases hc : e.call = 0
          · rw [hc, done1] at x1; cases x1
          · by_cases hc1 : e.call = 1
            · rw [hc1, upd_same] at x2
              exact ⟨hc1, .inr ⟨i1, (Option.some.inj x2).symm⟩⟩
            · rw [upd_other _ _ hc1, upd_other _ _ hc] at x2; cases x2
        · rw [mi _ i0 i1] at x2; cases x2
    obtain ⟨e, he, x1, x2, x3⟩ := hr 0 1 b3.bytes (ph0 1 (by decide)) l5
    obtain ⟨r, hor⟩ := race_order (o0 := o0) (o1 := o1) (by rw [c2 0 (by decide), a1]) (by rw [c1]) f11 f12 ht hn hm' e he x1
    have x3 := x3 []
    rw [hor, f10, (C35_call_results e.msg [] 2).2 _ (by decide)] at x3
    simp [asCall] at x3

end Ninep.Client
