import Verif.Props.Atomic
import Verif.Lemmas.Safe

set_option linter.unusedSimpArgs false
set_option linter.unusedVariables false

/-!
# Requests that do not get in each other's way are atomic (C94)

`C94_atomic_partial` is about executions in which nobody else uses the operating system while the server is in the middle of
a request.  Here others may use it, as long as what they do can as well be done before what was done for the request so far.
-/

namespace Ninep.Client
open Spec Ufs
variable {ω H : Type}

/-- the calls of the operating system made for the request that connection `i` works on -/
def madeFor (i : Nat) (ls : List (BLabel ω H)) : List (Ev H) :=
  ls.foldl (fun es l => match l with
    | .start j => if j = i then [] else es
    | .call j e => if j = i then es ++ [e] else es
    | .reply j => if j = i then [] else es
    | _ => es) []

/-- what is true of the worlds that can be reached (for example that no file has two names): calls of the operating
system keep it -/
def Kept (host : Host ω H) (ok : ω → Prop) : Prop := ∀ x w, ok w → ok (host.exec x w).1

/-- `e` can wait for `e'`: if both are made one after the other, with these answers, then they can be made in the other
order, with the same answers and the same effect. -/
def CanWait (host : Host ω H) (ok : ω → Prop) (e e' : Ev H) : Prop :=
  ∀ w, ok w → (host.exec e.1 w).2 = e.2 → (host.exec e'.1 (host.exec e.1 w).1).2 = e'.2 →
    (host.exec e'.1 w).2 = e'.2 ∧ (host.exec e.1 (host.exec e'.1 w).1).2 = e.2 ∧
    (host.exec e.1 (host.exec e'.1 w).1).1 = (host.exec e'.1 (host.exec e.1 w).1).1

/-- the change `f` of the world does not matter to `e`: it has the same answer and the same effect after it -/
def Blind (host : Host ω H) (ok : ω → Prop) (e : Ev H) (f : ω → ω) : Prop :=
  ∀ w, ok w → (host.exec e.1 w).2 = e.2 → (host.exec e.1 (f w)).2 = e.2 ∧ (host.exec e.1 (f w)).1 = f (host.exec e.1 w).1

/-- the calls made for the request of connection `i`, if it needs more calls -/
def unfinished (ls : List (BLabel ω H)) (n : Busy ω H) (i : Nat) : List (Ev H) :=
  match (n.con i).running with
  | some (.call _ _) => madeFor i ls
  | _ => []

/-- the step does not touch the world; or it is a call of the operating system for which all that was done for unfinished
requests of others can wait; or another process makes a change that does not matter to what was done for unfinished
requests -/
def Tolerable (host : Host ω H) (ok : ω → Prop) (made : Nat → List (Ev H)) (world : ω) : BLabel ω H → Prop
  | .call j e' => ∀ i, i ≠ j → ∀ e ∈ made i, CanWait host ok e e'
  | .other w' => ∃ f : ω → ω, f world = w' ∧ (∀ w, ok w → ok (f w)) ∧ ∀ i, ∀ e ∈ made i, Blind host ok e f
  | _ => True

/-- the executions that go on from `n`, which was reached with the steps `ls`, with tolerable steps only -/
inductive Apart (host : Host ω H) (ok : ω → Prop) (user : GoString) (ls : List (BLabel ω H)) (n : Busy ω H) : List (BLabel ω H) → Busy ω H → Prop
  | refl : Apart host ok user ls n [] n
  | step {ls' l n1 n2} : Apart host ok user ls n ls' n1 → BStep host user l n1 n2 →
      Tolerable host ok (unfinished (ls ++ ls') n1) n1.world l → Apart host ok user ls n (ls' ++ [l]) n2

theorem madeFor_snoc (i : Nat) (ls : List (BLabel ω H)) (l : BLabel ω H) : madeFor i (ls ++ [l]) = match l with
    | .start j => if j = i then [] else madeFor i ls
    | .call j e => if j = i then madeFor i ls ++ [e] else madeFor i ls
    | .reply j => if j = i then [] else madeFor i ls
    | _ => madeFor i ls := by
  unfold madeFor
  rw [List.foldl_append]
  cases l <;> rfl

theorem begun_iff (i : Nat) (ls : List (BLabel ω H)) : begun i ls = true ↔ madeFor i ls ≠ [] := by
  have key : ∀ (b : Bool) (es : List (Ev H)), (b = true ↔ es ≠ []) → ∀ ls : List (BLabel ω H),
      (ls.foldl (fun b l => match l with
        | .start j => if j = i then false else b
        | .call j _ => if j = i then true else b
        | .reply j => if j = i then false else b
        | _ => b) b = true ↔
      ls.foldl (fun es l => match l with
        | .start j => if j = i then [] else es
        | .call j e => if j = i then es ++ [e] else es
        | .reply j => if j = i then [] else es
        | _ => es) es ≠ []) := by
    intro b es h ls
    induction ls generalizing b es with
    | nil => exact h
    | cons l ls ih =>
      rw [List.foldl_cons, List.foldl_cons]
      refine ih _ _ ?_
      cases l with
      | start j => dsimp only; split <;> simp [h]
      | call j e => dsimp only; split <;> simp [h]
      | reply j => dsimp only; split <;> simp [h]
      | client j l => exact h
      | other w => exact h
  exact key false [] (by simp) ls

/-! ### calls that are put off -/

/-- the calls, made one after the other with these answers, lead from `w` to `w'` -/
def Gives (host : Host ω H) : ω → List (Ev H) → ω → Prop
  | w, [], w' => w' = w
  | w, e :: es, w' => (host.exec e.1 w).2 = e.2 ∧ Gives host (host.exec e.1 w).1 es w'

theorem gives_append {host : Host ω H} {w w' : ω} {es es' : List (Ev H)} :
    Gives host w (es ++ es') w' ↔ ∃ u, Gives host w es u ∧ Gives host u es' w' := by
  induction es generalizing w with
  | nil =>
    simp only [List.nil_append, Gives]
    exact ⟨fun h => ⟨w, rfl, h⟩, fun ⟨u, hu, h⟩ => hu ▸ h⟩
  | cons e es ih =>
    simp only [List.cons_append, Gives, ih]
    exact ⟨fun ⟨a, u, b, c⟩ => ⟨u, ⟨a, b⟩, c⟩, fun ⟨u, ⟨a, b⟩, c⟩ => ⟨a, u, b, c⟩⟩

theorem gives_ok {host : Host ω H} {ok : ω → Prop} (hk : Kept host ok) {es : List (Ev H)} {w w' : ω} (hw : ok w) (hg : Gives host w es w') : ok w' := by
  induction es generalizing w with
  | nil => rw [show w' = w from hg]; exact hw
  | cons e es ih => exact ih (hk _ _ hw) hg.2

theorem gives_wait {host : Host ω H} {ok : ω → Prop} (hk : Kept host ok) {a : Ev H} {es : List (Ev H)} (h : ∀ e ∈ es, CanWait host ok a e) {w w' : ω}
    (hw : ok w) (hg : Gives host w (a :: es) w') : Gives host w (es ++ [a]) w' := by
  induction es generalizing w with
  | nil => exact hg
  | cons e es ih =>
    obtain ⟨h1, h2, h3⟩ := hg
    obtain ⟨c1, c2, c3⟩ := h e (by simp) w hw h1 h2
    refine ⟨c1, ih (fun x hx => h x (by simp [hx])) (hk _ _ hw) ⟨c2, ?_⟩⟩
    rw [c3]
    exact h3

/-- the calls made for `j` -/
def callsIn (j : Nat) (L : List (Nat × Ev H)) : List (Ev H) := (L.filter fun a => a.1 = j).map Prod.snd

/-- the calls made for others -/
def without (j : Nat) (L : List (Nat × Ev H)) : List (Nat × Ev H) := L.filter fun a => a.1 ≠ j

/-- calls for different connections, the first of which can wait -/
def PutOff (host : Host ω H) (ok : ω → Prop) (L : List (Nat × Ev H)) : Prop := L.Pairwise fun a b => a.1 ≠ b.1 → CanWait host ok a.2 b.2

/-- all other calls can wait until those for `j` have been made -/
theorem gives_first {host : Host ω H} {ok : ω → Prop} (hk : Kept host ok) (j : Nat) {L : List (Nat × Ev H)} (h : PutOff host ok L) {w w' : ω} (hw : ok w) (hg : Gives host w (L.map Prod.snd) w') :
    ∃ u, Gives host w (callsIn j L) u ∧ Gives host u ((without j L).map Prod.snd) w' := by
  induction L generalizing w with
  | nil => exact ⟨w, rfl, hg⟩
  | cons a L ih =>
    obtain ⟨ha, hL⟩ := List.pairwise_cons.1 h
    obtain ⟨h1, h2⟩ := hg
    obtain ⟨u, g1, g2⟩ := ih hL (hk _ _ hw) h2
    by_cases haj : a.1 = j
    · refine ⟨u, ?_, ?_⟩
      · unfold callsIn
        rw [List.filter_cons_of_pos (by simp [haj])]
        exact ⟨h1, g1⟩
      · unfold without
        rw [List.filter_cons_of_neg (by simp [haj])]
        exact g2
    · have hx : Gives host w (callsIn j L ++ [a.2]) u := by
        refine gives_wait hk (fun e he => ?_) hw ⟨h1, g1⟩
        obtain ⟨b, hb, rfl⟩ := List.mem_map.1 he
        obtain ⟨hb, hbj⟩ := List.mem_filter.1 hb
        exact ha b hb fun hab => haj (hab.trans (by simpa using hbj))
      obtain ⟨v, k1, k2, k3⟩ := gives_append.1 hx
      refine ⟨v, ?_, ?_⟩
      · unfold callsIn
        rw [List.filter_cons_of_neg (by simp [haj])]
        exact k1
      · unfold without
        rw [List.filter_cons_of_pos (by simp [haj]), List.map_cons]
        refine ⟨k2, ?_⟩
        rw [show (host.exec a.2.1 v).1 = u from (k3 : u = _).symm]
        exact g2

theorem path_run {host : Host ω H} {α : Type} {p q : Prog H α} {es : List (Ev H)} (hp : Prog.Path p es q) {w w' : ω} (hg : Gives host w es w') :
    p.run host w = q.run host w' := by
  induction hp generalizing w with
  | nil => rw [show w' = w from hg]
  | @cons c k a tr q _ ih =>
    obtain ⟨h1, h2⟩ := hg
    dsimp only at h1 h2
    rw [Prog.run, h1]
    exact ih h2

/-! ### the invariant -/

/-- how far connection `i` is, compared with a history of whole requests that ends with the object `oi` -/
def Stand (user : GoString) (oi : Obj H) (i : Nat) (s : State) (con : Con H) (made mine : List (Ev H)) (pend : List Ans) : Prop :=
  match con.running with
  | none => pend = [] ∧ oi = con.obj ∧ mine = []
  | some (.ret (o', _, b)) => oi = o' ∧ mine = [] ∧ ∃ c y t m out, s.wire = (c, m.packet t) :: y ∧ pend = [⟨⟨i, c, m, out⟩, t⟩] ∧ b.bytes = asPacket t out ∧
      b.bytes.length = pktLen b.bytes ∧ tagField b.bytes = t.toNat
  | some .panic => False
  | some (.call x k) => pend = [] ∧ oi = con.obj ∧ mine = made ∧ ∃ c q y spare, s.wire = (c, q) :: y ∧
      Prog.Path (pdispatch user con.obj true ⟨[], q.drop 5, spare⟩ (q.getD 4 0)) mine (.call x k)

/-- `h` are the calls of clients that have taken effect, `L` the calls of the operating system made for requests that are
being worked on -/
structure SInv (host : Host ω H) (ok : ω → Prop) (user : GoString) (o0 : Nat → Obj H) (w0 : ω) (ls : List (BLabel ω H)) (n : Busy ω H) (h : List Ans)
    (o : Nat → Obj H) (w1 : ω) (pend : Nat → List Ans) (L : List (Nat × Ev H)) : Prop where
  inv : ∀ i, Inv (n.cl i)
  open_ : ∀ i, Open (n.cl i)
  fifo : ∀ i, (n.cl i).written = (n.cl i).replied.map (fun r => (r.1, r.2.1)) ++ (n.cl i).wire
  replied : ∀ i, ∃ a, (h.filter fun a => a.made.client = i) = a ++ pend i ∧ (n.cl i).replied = a.map Ans.replied
  msg : ∀ a ∈ h, (n.cl a.made.client).msg a.made.call = some a.made.msg
  direct : ∃ us, us.length = (madeByOthers ls).length ∧ Direct (ufs host user) o0 w0 us (h.map Ans.made) o w1
  good : ∀ a ∈ h, GoodRes a.made.msg a.made.out
  stand : ∀ i, Stand user (o i) i (n.cl i) (n.con i) (madeFor i ls) (callsIn i L) (pend i)
  gives : Gives host w1 (L.map Prod.snd) n.world
  waits : PutOff host ok L
  fine : ok w1

theorem sInv_halfway {host : Host ω H} {ok : ω → Prop} {user : GoString} {o0 : Nat → Obj H} {w0 : ω} {ls : List (BLabel ω H)} {n : Busy ω H} {h : List Ans}
    {o : Nat → Obj H} {w1 : ω} {pend : Nat → List Ans} {L : List (Nat × Ev H)} (hi : SInv host ok user o0 w0 ls n h o w1 pend L)
    {a : Nat × Ev H} (ha : a ∈ L) : Halfway ls n a.1 ∧ a.2 ∈ unfinished ls n a.1 := by
  have hm : a.2 ∈ callsIn a.1 L := List.mem_map.2 ⟨a, List.mem_filter.2 ⟨ha, by simp⟩, rfl⟩
  have hne : callsIn a.1 L ≠ [] := fun h => by rw [h] at hm; cases hm
  have hst := hi.stand a.1
  unfold Stand at hst
  cases hr : (n.con a.1).running with
  | none => rw [hr] at hst; exact absurd hst.2.2 hne
  | some p =>
    rw [hr] at hst
    cases p with
    | ret r => exact absurd hst.2.1 hne
    | panic => exact hst.elim
    | call x k =>
      obtain ⟨-, -, h1, -⟩ := hst
      rw [h1] at hm hne
      refine ⟨⟨(begun_iff a.1 ls).2 hne, x, k, hr⟩, ?_⟩
      unfold unfinished
      rw [hr]
      exact hm

/-- connection `i` gets to the program `p`, after a start or a call of the operating system -/
theorem apart_move {host : Host ω H} {ok : ω → Prop} (hok : Kept host ok) (hh : host.Short) {user : GoString} (hu : user.length < 2 ^ 13) {o0 : Nat → Obj H} {w0 : ω}
    {ls : List (BLabel ω H)} {n : Busy ω H} {h : List Ans} {o : Nat → Obj H} {w1 : ω} {pend : Nat → List Ans} {L : List (Nat × Ev H)}
    (hi : SInv host ok user o0 w0 ls n h o w1 pend L)
    (hf : BFit Ordinary n) (l : BLabel ω H) (i c : Nat) (q : Bytes) (y : List (Nat × Bytes)) (spare : Bytes) (p : Prog H (Ufs.Served H)) (world' : ω)
    (L' : List (Nat × Ev H))
    (hlo : madeByOthers [l] = []) (hw : (n.cl i).wire = (c, q) :: y) (hpend : pend i = []) (hobj : o i = (n.con i).obj)
    (hpath : Prog.Path (pdispatch user (n.con i).obj true ⟨[], q.drop 5, spare⟩ (q.getD 4 0)) (callsIn i L') p)
    (hmade : callsIn i L' = madeFor i (ls ++ [l])) (hbg : ∀ j, j ≠ i → madeFor j (ls ++ [l]) = madeFor j ls)
    (hcalls : ∀ j, j ≠ i → callsIn j L' = callsIn j L) (hgives : Gives host w1 (L'.map Prod.snd) world') (hwaits : PutOff host ok L') :
    ∃ t o' w1' pend' L'', SInv host ok user o0 w0 (ls ++ [l]) { n with con := upd n.con i { n.con i with running := some p }, world := world' }
      (h ++ t) o' w1' pend' L'' ∧ Extends host user o w1 [] t o' w1' := by
  have hlo' : madeByOthers (ls ++ [l]) = madeByOthers ls := by rw [others_append, hlo, List.append_nil]
  obtain ⟨m, t, hlegal, hm, hq⟩ := (hi.inv i).wire (c, q) (by simp [hw])
  dsimp only at hm hq
  subst hq
  obtain ⟨hmP, hmf, hml⟩ := hf i c m hm
  obtain ⟨u, hu1, hu2⟩ := gives_first hok i hwaits hi.fine hgives
  have hrun := path_run hpath hu1
  cases p with
  | panic => exact absurd hrun (whole_some hmP hmf (hml t))
  | call x k =>
    refine ⟨[], o, w1, pend, L', ⟨hi.inv, hi.open_, hi.fifo, by rw [List.append_nil]; exact hi.replied, by rw [List.append_nil]; exact hi.msg,
      by rw [List.append_nil, hlo']; exact hi.direct, by rw [List.append_nil]; exact hi.good, ?_, hgives, hwaits, hi.fine⟩, extends_nil _ _ _ _⟩
    intro j
    by_cases hj : j = i
    · subst hj
      unfold Stand
      dsimp only
      rw [upd_same]
      exact ⟨hpend, hobj, hmade, c, _, y, spare, hw, hpath⟩
    · dsimp only
      rw [upd_other _ _ hj, hbg j hj, hcalls j hj]
      exact hi.stand j
  | ret r =>
    obtain ⟨o', v, b⟩ := r
    obtain ⟨out, hg, hbo, hlen, htag, hdir⟩ := whole hh hu hmP hmf (hml t) hrun
    refine ⟨[⟨⟨i, c, m, out⟩, t⟩], upd o i o', u, upd pend i [⟨⟨i, c, m, out⟩, t⟩], without i L', ⟨hi.inv, hi.open_, hi.fifo, ?_, ?_, ?_, ?_, ?_, hu2, ?_, gives_ok hok hi.fine hu1⟩,
      fun oo ww us0 hs hd => by rw [List.append_nil]; exact hdir o i c hobj oo ww us0 hs hd⟩
    · intro j
      obtain ⟨a, h1, h2⟩ := hi.replied j
      refine ⟨a, ?_, h2⟩
      rw [List.filter_append, h1]
      by_cases hj : j = i
      · subst hj; rw [upd_same, hpend]; simp
      · rw [upd_other _ _ hj]; simp [Ne.symm hj]
    · intro a ha
      rcases List.mem_append.1 ha with ha | ha
      · exact hi.msg a ha
      · rw [List.mem_singleton.1 ha]; exact hm
    · obtain ⟨us, hus, hd⟩ := hi.direct
      rw [List.map_append, hlo']; exact ⟨us, hus, hdir o i c hobj _ _ _ _ hd⟩
    · intro a ha
      rcases List.mem_append.1 ha with ha | ha
      · exact hi.good a ha
      · rw [List.mem_singleton.1 ha]; exact hg
    · intro j
      by_cases hj : j = i
      · subst hj
        unfold Stand
        dsimp only
        rw [upd_same, upd_same, upd_same]
        refine ⟨rfl, ?_, c, y, t, m, out, hw, rfl, hbo, hlen, htag⟩
        unfold callsIn without
        rw [List.filter_filter, List.map_eq_nil_iff, List.filter_eq_nil_iff]
        intro a _
        simp
      · dsimp only
        rw [upd_other _ _ hj, upd_other _ _ hj, upd_other _ _ hj, hbg j hj]
        have : callsIn j (without i L') = callsIn j L' := by
          unfold callsIn without
          rw [List.filter_filter]
          congr 1
          refine List.filter_congr fun a _ => ?_
          by_cases haj : a.1 = j
          · simp [haj, hj]
          · simp [haj]
        rw [this, hcalls j hj]
        exact hi.stand j
    · exact hwaits.sublist List.filter_sublist

theorem apart_step {host : Host ω H} {ok : ω → Prop} (hok : Kept host ok) (hh : host.Short) {user : GoString} (hu : user.length < 2 ^ 13) {o0 : Nat → Obj H} {w0 : ω}
    {ls : List (BLabel ω H)} {n n' : Busy ω H} {l : BLabel ω H} {h : List Ans} {o : Nat → Obj H} {w1 : ω} {pend : Nat → List Ans} {L : List (Nat × Ev H)}
    (hi : SInv host ok user o0 w0 ls n h o w1 pend L) (hf : BFit Ordinary n) (hs : BStep host user l n n')
    (hc : Tolerable host ok (unfinished ls n) n.world l) :
    ∃ us t o' w1' pend' L', SInv host ok user o0 w0 (ls ++ [l]) n' (h ++ t) o' w1' pend' L' ∧ us.length = (madeByOthers [l]).length ∧
      Extends host user o w1 us t o' w1' := by
  cases hs with
  | other _ w =>
    obtain ⟨f, rfl, hfo, hb⟩ := hc
    have key : ∀ (es : List (Ev H)) (u v : ω), ok u → (∀ e ∈ es, Blind host ok e f) → Gives host u es v → Gives host (f u) es (f v) := by
      intro es
      induction es with
      | nil => intro u v _ _ hg; rw [show v = u from hg]; rfl
      | cons e es ih =>
        intro u v hu hb hg
        obtain ⟨b1, b2⟩ := hb e (by simp) u hu hg.1
        refine ⟨b1, ?_⟩
        rw [b2]
        exact ih _ _ (hok _ _ hu) (fun x hx => hb x (by simp [hx])) hg.2
    refine ⟨[f w1], [], o, f w1, pend, L, ⟨hi.inv, hi.open_, hi.fifo, by rw [List.append_nil]; exact hi.replied, by rw [List.append_nil]; exact hi.msg,
      ?_, by rw [List.append_nil]; exact hi.good, ?_, key _ _ _ hi.fine ?_ hi.gives, hi.waits, hfo _ hi.fine⟩, rfl, ?_⟩
    · obtain ⟨us, hus, hd⟩ := hi.direct
      rw [List.append_nil, others_append]
      exact ⟨us ++ [f w1], by rw [List.length_append, List.length_append, hus]; rfl, .other _ hd⟩
    · intro j
      rw [madeFor_snoc]
      exact hi.stand j
    · intro e he
      obtain ⟨a, ha, rfl⟩ := List.mem_map.1 he
      exact hb a.1 _ (sInv_halfway hi ha).2
    · intro oo ww us0 hs hd
      simpa using Direct.other (f w1) hd
  | start _ i c q y spare hw hr =>
    have hst := hi.stand i
    unfold Stand at hst
    rw [hr] at hst
    refine ⟨[], ?_⟩
    rw [show madeByOthers [(BLabel.start i : BLabel ω H)] = [] from rfl]
    simp only [List.length_nil, true_and]
    refine apart_move hok hh hu hi hf (.start i) i c q y spare _ n.world L rfl hw hst.1 hst.2.1 ?_ ?_ ?_ (fun _ _ => rfl) hi.gives hi.waits
    · rw [hst.2.2]; exact .nil
    · rw [hst.2.2, madeFor_snoc]; simp
    · intro j hj
      rw [madeFor_snoc]
      simp [Ne.symm hj]
  | call _ i x k hr =>
    have hst := hi.stand i
    unfold Stand at hst
    rw [hr] at hst
    obtain ⟨s1, s2, s3, c, q, y, spare, s4, s5⟩ := hst
    have hci : callsIn i (L ++ [(i, ⟨x, (host.exec x n.world).2⟩)]) = callsIn i L ++ [⟨x, (host.exec x n.world).2⟩] := by
      unfold callsIn
      rw [List.filter_append, List.map_append]
      simp
    refine ⟨[], ?_⟩
    rw [show madeByOthers [(BLabel.call i ⟨x, (host.exec x n.world).2⟩ : BLabel ω H)] = [] from rfl]
    simp only [List.length_nil, true_and]
    refine apart_move hok hh hu hi hf (.call i ⟨x, (host.exec x n.world).2⟩) i c q y spare (k (host.exec x n.world).2) (host.exec x n.world).1
      (L ++ [(i, ⟨x, (host.exec x n.world).2⟩)]) rfl s4 s1 s2 ?_ ?_ ?_ ?_ ?_ ?_
    · rw [hci]; exact s5.snoc _
    · rw [hci, madeFor_snoc, s3]; simp
    · intro j hj
      rw [madeFor_snoc]
      simp [Ne.symm hj]
    · intro j hj
      unfold callsIn
      rw [List.filter_append, List.filter_cons_of_neg (by simp [Ne.symm hj])]
      simp
    · rw [List.map_append]
      exact gives_append.2 ⟨_, hi.gives, rfl, rfl⟩
    · refine List.pairwise_append.2 ⟨hi.waits, List.pairwise_singleton .., ?_⟩
      intro a ha b hb hne
      rw [List.mem_singleton.1 hb] at hne ⊢
      exact hc a.1 hne _ (sInv_halfway hi ha).2
  | client _ i l cl' hl hal hst =>
    have hsv : Serving l := by cases l <;> simp [ClientSide, Serving] at hl ⊢
    have hw : cl'.written = cl'.replied.map (fun r => (r.1, r.2.1)) ++ cl'.wire := by
      have hfifo := hi.fifo i
      generalize n.cl i = c at hst hfifo
      cases hst <;> first | exact hl.elim | exact hfifo | skip
      dsimp only at hfifo ⊢
      rw [hfifo, List.append_assoc]
    have hrep : cl'.replied = (n.cl i).replied := by
      generalize n.cl i = c at hst
      cases hst <;> first | exact hl.elim | rfl
    obtain ⟨z, hz⟩ := wire_prefix hl hst
    refine ⟨[], [], o, w1, pend, L, ⟨upd_all (fun (s : State) _ => Inv s) (inv_step (serving_abiding l hsv) (hi.inv i) hst) (fun j _ => hi.inv j),
      upd_all (fun (s : State) _ => Open s) (open_step hsv (hi.inv i) (hi.open_ i) hst) (fun j _ => hi.open_ j),
      upd_all (fun (s : State) _ => s.written = s.replied.map (fun r => (r.1, r.2.1)) ++ s.wire) hw (fun j _ => hi.fifo j),
      ?_, ?_, by rw [List.append_nil, others_append]; simpa [madeByOthers] using hi.direct, by rw [List.append_nil]; exact hi.good, ?_, hi.gives, hi.waits, hi.fine⟩, rfl, extends_nil _ _ _ _⟩
    · rw [List.append_nil]
      refine upd_all (fun (s : State) j => ∃ a, (h.filter fun a => a.made.client = j) = a ++ pend j ∧ s.replied = a.map Ans.replied) ?_ (fun j _ => hi.replied j)
      rw [hrep]; exact hi.replied i
    · rw [List.append_nil]
      intro a ha
      exact upd_all (fun (s : State) j => a.made.client = j → s.msg a.made.call = some a.made.msg)
        (fun hai => msg_step (hi.inv i) hst (by have := hi.msg a ha; rw [hai] at this; exact this)) (fun j _ hai => hai ▸ hi.msg a ha) a.made.client rfl
    · intro j
      rw [madeFor_snoc]
      have hsg := hi.stand j
      by_cases hj : j = i
      · subst hj
        dsimp only
        rw [upd_same]
        unfold Stand at hsg ⊢
        cases hr : (n.con j).running with
        | none => rw [hr] at hsg; exact hsg
        | some p =>
          rw [hr] at hsg
          cases p with
          | ret r =>
            obtain ⟨s1, s0, c', y', t', m', out', s2, s3⟩ := hsg
            exact ⟨s1, s0, c', y' ++ z, t', m', out', by rw [← hz, s2]; rfl, s3⟩
          | panic => exact hsg
          | call x k =>
            obtain ⟨s1, s2, s0, c', q', y', spare', s3, s4⟩ := hsg
            exact ⟨s1, s2, s0, c', q', y' ++ z, spare', by rw [← hz, s3]; rfl, s4⟩
      · dsimp only
        rw [upd_other _ _ hj]
        exact hsg
  | reply _ i c q y o' v b hw hr =>
    have hst := hi.stand i
    unfold Stand at hst
    rw [hr] at hst
    obtain ⟨s1, s0, c', y', t, m, out, s2, s3, s4, s5, s6⟩ := hst
    rw [hw] at s2
    cases s2
    have hstep : Step true .reply (n.cl i) (answeredWith (n.cl i) c (m.packet t) y b.bytes) :=
      Step.reply (n.cl i) [] y c (m.packet t) b.bytes hw s5 (by rw [s6, tagField_packet]) (hi.open_ i).closed
    refine ⟨[], [], o, w1, upd pend i [], L, ⟨upd_all (fun (s : State) _ => Inv s) (inv_step (l := .reply) trivial (hi.inv i) hstep) (fun j _ => hi.inv j),
      upd_all (fun (s : State) _ => Open s) (open_step (l := .reply) trivial (hi.inv i) (hi.open_ i) hstep) (fun j _ => hi.open_ j),
      upd_all (fun (s : State) _ => s.written = s.replied.map (fun r => (r.1, r.2.1)) ++ s.wire) ?_ (fun j _ => hi.fifo j),
      ?_, ?_, by rw [List.append_nil, others_append]; simpa [madeByOthers] using hi.direct, by rw [List.append_nil]; exact hi.good, ?_, hi.gives, hi.waits, hi.fine⟩, rfl, extends_nil _ _ _ _⟩
    · have hfifo := hi.fifo i
      simp only [answeredWith]
      rw [hfifo, hw]
      simp
    · rw [List.append_nil]
      intro j
      obtain ⟨a, h1, h2⟩ := hi.replied j
      by_cases hj : j = i
      · subst hj
        dsimp only
        rw [upd_same, upd_same]
        refine ⟨a ++ pend j, by rw [h1, List.append_nil], ?_⟩
        simp only [answeredWith]
        rw [h2, s3, List.map_append, s4]
        rfl
      · dsimp only
        rw [upd_other _ _ hj, upd_other _ _ hj]
        exact ⟨a, h1, h2⟩
    · rw [List.append_nil]
      intro a ha
      exact upd_all (fun (s : State) j => a.made.client = j → s.msg a.made.call = some a.made.msg)
        (fun hai => hai ▸ hi.msg a ha) (fun j _ hai => hai ▸ hi.msg a ha) a.made.client rfl
    · intro j
      by_cases hj : j = i
      · subst hj
        unfold Stand
        dsimp only
        rw [upd_same, upd_same]
        exact ⟨rfl, s1, s0⟩
      · rw [madeFor_snoc]
        dsimp only
        rw [if_neg (Ne.symm hj), upd_other _ _ hj, upd_other _ _ hj, upd_other _ _ hj]
        exact hi.stand j

theorem apart_exec {host : Host ω H} {ok : ω → Prop} (hok : Kept host ok) (hh : host.Short) {user : GoString} (hu : user.length < 2 ^ 13) {o0 : Nat → Obj H} {w0 : ω}
    {ls ls' : List (BLabel ω H)} {n n' : Busy ω H} {h : List Ans} {o : Nat → Obj H} {w1 : ω} {pend : Nat → List Ans} {L : List (Nat × Ev H)}
    (hi : SInv host ok user o0 w0 ls n h o w1 pend L) (he : Apart host ok user ls n ls' n') (hf : BFit Ordinary n') :
    BFit Ordinary n ∧ ∃ us t o' w1' pend' L', SInv host ok user o0 w0 (ls ++ ls') n' (h ++ t) o' w1' pend' L' ∧ us.length = (madeByOthers ls').length ∧
      Extends host user o w1 us t o' w1' := by
  induction he with
  | refl => exact ⟨hf, [], [], o, w1, pend, L, by rw [List.append_nil, List.append_nil]; exact hi, rfl, extends_nil _ _ _ _⟩
  | @step ls1 l n1 n2 he hs hc ih =>
    have hfr : ∀ i, Fresh (n1.cl i) := by
      clear ih hf hs hc
      induction he with
      | refl => exact fun i c hc => (hi.inv i).idle c hc
      | step _ hs _ ih => exact (busy_fresh ih hs).1
    have hf1 : BFit Ordinary n1 := fun i c m hm => hf i c m ((busy_fresh hfr hs).2 i c m hm)
    obtain ⟨hfn, us, t, o1, w1', pend1, L1, g1, gu, g2⟩ := ih hf1
    obtain ⟨us', t', o2, w2, pend2, L2, k1, ku, k2⟩ := apart_step hok hh hu g1 hf1 hs hc
    exact ⟨hfn, us ++ us', t ++ t', o2, w2, pend2, L2, by rw [← List.append_assoc, ← List.append_assoc]; exact k1,
      by rw [others_append, List.length_append, List.length_append, gu, ku], extends_trans g2 k2⟩

theorem sInv_start (host : Host ω H) {ok : ω → Prop} (user root : GoString) (w : ω) (hw : ok w) :
    SInv host ok user (fun _ => newObj root) w [] (Busy.start root w) [] (fun _ => newObj root) w (fun _ => []) [] :=
  ⟨fun _ => inv_init, fun _ => open_init, fun _ => rfl, fun _ => ⟨[], rfl, rfl⟩, by simp, ⟨[], rfl, .nil⟩, by simp, fun i => ⟨rfl, rfl, rfl⟩, rfl, .nil, hw⟩

theorem sInv_calls {host : Host ω H} {ok : ω → Prop} {user : GoString} {o0 : Nat → Obj H} {w0 : ω} {ls : List (BLabel ω H)} {n : Busy ω H} {h : List Ans}
    {o : Nat → Obj H} {w1 : ω} {pend : Nat → List Ans} {L : List (Nat × Ev H)} (hi : SInv host ok user o0 w0 ls n h o w1 pend L) :
    ((h.map Ans.made).map fun e => (e.client, e.call)).Nodup ∧
    (∀ i, ((h.map Ans.made).filter fun e => e.client = i).map (fun e => e.call) <+: (n.cl i).written.map Prod.fst) ∧
    (∀ e ∈ h.map Ans.made, (n.cl e.client).phase e.call ≠ .idle ∧ (n.cl e.client).msg e.call = some e.msg) ∧
    ∀ i c b, (n.cl i).phase c = .done b → ∃ e ∈ h.map Ans.made, e.client = i ∧ e.call = c ∧ ∀ spare, callT e.msg spare b = asCall e.msg e.out := by
  refine ans_calls hi.inv hi.replied hi.msg hi.good hi.fifo fun i => ?_
  have hst := hi.stand i
  unfold Stand at hst
  cases hr : (n.con i).running with
  | none => rw [hr] at hst; rw [hst.1]; exact ⟨_, rfl⟩
  | some p =>
    rw [hr] at hst
    cases p with
    | ret r =>
      obtain ⟨-, -, c, y, t, m, out, s2, s3, -⟩ := hst
      rw [s2, s3]; exact ⟨_, rfl⟩
    | panic => exact hst.elim
    | call x k => rw [hst.1]; exact ⟨_, rfl⟩

/-- **C94, partial** Overlapping requests are atomic also if others use the operating system while the server is in the
middle of a request, as long as what was done for the request can wait for what the others do, and does not depend on the
changes that other processes make.  The conclusion is that of `C94_atomic_partial`, where in the order the other processes
make as many changes as in the execution, and none if they make none.  Missing are the executions in which
requests disturb each other (`C94_counterexample`). -/
theorem C94_apart_partial {host : Host ω H} {ok : ω → Prop} (hok : Kept host ok) (hh : host.Short) {user : GoString} (hu : user.length < 2 ^ 13)
    (root : GoString) (w : ω) (hw : ok w)
    (n n' : Busy ω H) (ls ls' : List (BLabel ω H)) (he : Apart host ok user [] (Busy.start root w) ls n) (he' : Apart host ok user ls n ls' n')
    (hf : BFit Ordinary n') :
    ∃ us us' h t o w1 o' w1', us.length = (madeByOthers ls).length ∧ us'.length = (madeByOthers ls').length ∧
      Direct (ufs host user) (fun _ => newObj root) w us h o w1 ∧ Direct (ufs host user) o w1 us' t o' w1' ∧
      ((h ++ t).map fun e => (e.client, e.call)).Nodup ∧
      (∀ i, ((h ++ t).filter fun e => e.client = i).map (fun e => e.call) <+: (n'.cl i).written.map Prod.fst) ∧
      (∀ e ∈ h, (n.cl e.client).phase e.call ≠ .idle) ∧
      (∀ e ∈ h ++ t, (n'.cl e.client).phase e.call ≠ .idle ∧ (n'.cl e.client).msg e.call = some e.msg) ∧
      (∀ i c b, (n.cl i).phase c = .done b → ∃ e ∈ h, e.client = i ∧ e.call = c ∧ ∀ spare, callT e.msg spare b = asCall e.msg e.out) ∧
      (∀ i c b, (n'.cl i).phase c = .done b → ∃ e ∈ h ++ t, e.client = i ∧ e.call = c ∧ ∀ spare, callT e.msg spare b = asCall e.msg e.out) ∧
      (∀ i, (n'.con i).running = none → o' i = (n'.con i).obj) ∧
      ((∀ i, ¬ Halfway (ls ++ ls') n' i) → w1' = n'.world) := by
  have hfn : BFit Ordinary n := by
    have hfr : ∀ {l0 : List (BLabel ω H)} {a b : Busy ω H} {bs : List (BLabel ω H)}, (∀ i, Fresh (a.cl i)) → Apart host ok user l0 a bs b → (∀ i, Fresh (b.cl i)) ∧
        ∀ i c m, (a.cl i).msg c = some m → (b.cl i).msg c = some m := by
      intro l0 a b bs h0 h
      induction h with
      | refl => exact ⟨h0, fun _ _ _ hm => hm⟩
      | step _ hs _ ih => exact ⟨(busy_fresh ih.1 hs).1, fun i c m hm => (busy_fresh ih.1 hs).2 i c m (ih.2 i c m hm)⟩
    exact fun i c m hm => hf i c m ((hfr (hfr (fun _ _ _ => rfl) he).1 he').2 i c m hm)
  obtain ⟨-, -, h, o, w1, pend, L, hi, -⟩ := apart_exec hok hh hu (sInv_start host user root w hw) he hfn
  rw [List.nil_append, List.nil_append] at hi
  obtain ⟨-, us', t, o', w1', pend', L', hi', hu', hx⟩ := apart_exec hok hh hu hi he' hf
  obtain ⟨us, hus, hdir⟩ := hi.direct
  have a := sInv_calls hi
  have b := sInv_calls hi'
  rw [List.map_append] at b
  refine ⟨us, us', h.map Ans.made, t.map Ans.made, o, w1, o', w1', hus, hu', hdir, by simpa using hx _ _ _ _ .nil, b.1, b.2.1, fun e he => (a.2.2.1 e he).1, b.2.2.1, a.2.2.2, b.2.2.2,
    fun i hr => ?_, fun hno => ?_⟩
  · have := hi'.stand i
    unfold Stand at this
    rw [hr] at this
    exact this.2.1
  · have hg := hi'.gives
    cases L' with
    | nil => exact (hg : n'.world = w1').symm
    | cons x L' => exact absurd (sInv_halfway hi' (List.mem_cons_self ..)).1 (hno _)

/-- `C94_atomic_partial` is a special case -/
theorem calm_apart {host : Host ω H} {user : GoString} {ls ls' : List (BLabel ω H)} {n n' : Busy ω H} (h : Calm host user ls n ls' n') :
    Apart host (fun _ => True) user ls n ls' n' := by
  induction h with
  | refl => exact .refl
  | @step ls' l n1 n2 _ hs hc ih =>
    refine .step ih hs ?_
    have half : ∀ i, ∀ e ∈ unfinished (ls ++ ls') n1 i, Halfway (ls ++ ls') n1 i := by
      intro i e he
      unfold unfinished at he
      cases hr : (n1.con i).running with
      | none => rw [hr] at he; cases he
      | some p =>
        rw [hr] at he
        cases p with
        | ret r => cases he
        | panic => cases he
        | call x k => exact ⟨(begun_iff _ _).2 (List.ne_nil_of_mem he), x, k, hr⟩
    cases l with
    | call j e' => exact fun i hi e he => absurd (hc i (half i e he)).symm hi
    | other w' => exact ⟨fun _ => w', rfl, fun _ _ => trivial, fun i e he => (hc i (half i e he)).elim⟩
    | start j => trivial
    | reply j => trivial
    | client j l => trivial

/-! ### clients that keep out of each other's way -/

/-- the calls answer the same and have the same effect in both orders -/
def Commute (host : Host ω H) (ok : ω → Prop) (x y : HCall H) : Prop :=
  ∀ w, ok w → (host.exec y (host.exec x w).1).2 = (host.exec y w).2 ∧ (host.exec x (host.exec y w).1).2 = (host.exec x w).2 ∧
    (host.exec x (host.exec y w).1).1 = (host.exec y (host.exec x w).1).1

theorem commute_waits {host : Host ω H} {ok : ω → Prop} {e e' : Ev H} (h : Commute host ok e.1 e'.1) : CanWait host ok e e' := by
  intro w hw h1 h2
  obtain ⟨a, b, c⟩ := h w hw
  exact ⟨a ▸ h2, b.trans h1, c⟩

/-- the calls of the operating system for client `i` are of the kind `kind i`, and no other process uses it -/
def Sorted (kind : Nat → HCall H → Prop) (ls : List (BLabel ω H)) : Prop :=
  Inside ls ∧ ∀ i e, BLabel.call i e ∈ ls → kind i e.1

theorem madeFor_mem {i : Nat} {ls : List (BLabel ω H)} {e : Ev H} (h : e ∈ madeFor i ls) : BLabel.call i e ∈ ls := by
  have key : ∀ (ls : List (BLabel ω H)) (es : List (Ev H)), e ∈ ls.foldl (fun es l => match l with
        | .start j => if j = i then [] else es
        | .call j e => if j = i then es ++ [e] else es
        | .reply j => if j = i then [] else es
        | _ => es) es → e ∈ es ∨ BLabel.call i e ∈ ls := by
    intro ls
    induction ls with
    | nil => exact fun es h => .inl h
    | cons l ls ih =>
      intro es h
      rw [List.foldl_cons] at h
      rcases ih _ h with g | g
      · clear h ih
        cases l with
        | start j => dsimp only at g; split at g <;> first | exact .inl g | cases g
        | call j e' =>
          dsimp only at g
          split at g
          · rename_i hj
            subst hj
            rcases List.mem_append.1 g with g | g
            · exact .inl g
            · rw [List.mem_singleton.1 g]; exact .inr (by simp)
          · exact .inl g
        | reply j => dsimp only at g; split at g <;> first | exact .inl g | cases g
        | client j l => exact .inl g
        | other w => exact .inl g
      · exact .inr (List.mem_cons_of_mem _ g)
  rcases key ls [] h with h | h
  · cases h
  · exact h

theorem unfinished_mem {i : Nat} {ls : List (BLabel ω H)} {n : Busy ω H} {e : Ev H} (h : e ∈ unfinished ls n i) : BLabel.call i e ∈ ls := by
  unfold unfinished at h
  split at h
  · exact madeFor_mem h
  · cases h

theorem sorted_apart {host : Host ω H} {ok : ω → Prop} {user : GoString} {kind : Nat → HCall H → Prop} (hk : ∀ i j x y, i ≠ j → kind i x → kind j y → Commute host ok x y)
    {ls ls' : List (BLabel ω H)} {n n' : Busy ω H} (hs : Sorted kind (ls ++ ls')) (he : BExec host user n ls' n') : Apart host ok user ls n ls' n' := by
  induction he with
  | refl => exact .refl
  | @step n1 n2 ls' l he hst ih =>
    have h1 : ∀ x ∈ ls ++ ls', x ∈ ls ++ (ls' ++ [l]) := fun x hx => by
      rw [← List.append_assoc]; exact List.mem_append_left _ hx
    have h2 : l ∈ ls ++ (ls' ++ [l]) := by simp
    refine .step (ih ⟨fun x hx => hs.1 x (h1 _ hx), fun i e hx => hs.2 i e (h1 _ hx)⟩) hst ?_
    cases l with
    | call j e' => exact fun i hi e he => commute_waits (hk i j _ _ hi (hs.2 i e (h1 _ (unfinished_mem he))) (hs.2 j e' h2))
    | other w' => exact absurd h2 (hs.1 w')
    | start j => trivial
    | reply j => trivial
    | client j l => trivial

/-- the calls that have returned at `n` and at `n'` are explained by an order that respects real time: the conclusion of
`C94_apart_partial`, when no other process changes anything -/
def InOneOrder (host : Host ω H) (user root : GoString) (w : ω) (n n' : Busy ω H) (ls ls' : List (BLabel ω H)) : Prop :=
  ∃ h t o w1 o' w1', Direct (ufs host user) (fun _ => newObj root) w [] h o w1 ∧ Direct (ufs host user) o w1 [] t o' w1' ∧
    ((h ++ t).map fun e => (e.client, e.call)).Nodup ∧
    (∀ i, ((h ++ t).filter fun e => e.client = i).map (fun e => e.call) <+: (n'.cl i).written.map Prod.fst) ∧
    (∀ e ∈ h, (n.cl e.client).phase e.call ≠ .idle) ∧
    (∀ e ∈ h ++ t, (n'.cl e.client).phase e.call ≠ .idle ∧ (n'.cl e.client).msg e.call = some e.msg) ∧
    (∀ i c b, (n.cl i).phase c = .done b → ∃ e ∈ h, e.client = i ∧ e.call = c ∧ ∀ spare, callT e.msg spare b = asCall e.msg e.out) ∧
    (∀ i c b, (n'.cl i).phase c = .done b → ∃ e ∈ h ++ t, e.client = i ∧ e.call = c ∧ ∀ spare, callT e.msg spare b = asCall e.msg e.out) ∧
    (∀ i, (n'.con i).running = none → o' i = (n'.con i).obj) ∧
    ((∀ i, ¬ Halfway (ls ++ ls') n' i) → w1' = n'.world)

theorem InOneOrder.of {host : Host ω H} {user root : GoString} {w : ω} {n n' : Busy ω H} {ls ls' : List (BLabel ω H)} (hin : Inside (ls ++ ls'))
    (h : ∃ us us' h t o w1 o' w1', us.length = (madeByOthers ls).length ∧ us'.length = (madeByOthers ls').length ∧
      Direct (ufs host user) (fun _ => newObj root) w us h o w1 ∧ Direct (ufs host user) o w1 us' t o' w1' ∧
      ((h ++ t).map fun e => (e.client, e.call)).Nodup ∧
      (∀ i, ((h ++ t).filter fun e => e.client = i).map (fun e => e.call) <+: (n'.cl i).written.map Prod.fst) ∧
      (∀ e ∈ h, (n.cl e.client).phase e.call ≠ .idle) ∧
      (∀ e ∈ h ++ t, (n'.cl e.client).phase e.call ≠ .idle ∧ (n'.cl e.client).msg e.call = some e.msg) ∧
      (∀ i c b, (n.cl i).phase c = .done b → ∃ e ∈ h, e.client = i ∧ e.call = c ∧ ∀ spare, callT e.msg spare b = asCall e.msg e.out) ∧
      (∀ i c b, (n'.cl i).phase c = .done b → ∃ e ∈ h ++ t, e.client = i ∧ e.call = c ∧ ∀ spare, callT e.msg spare b = asCall e.msg e.out) ∧
      (∀ i, (n'.con i).running = none → o' i = (n'.con i).obj) ∧
      ((∀ i, ¬ Halfway (ls ++ ls') n' i) → w1' = n'.world)) : InOneOrder host user root w n n' ls ls' := by
  have hno : ∀ (ks : List (BLabel ω H)), Inside ks → madeByOthers ks = [] := by
    intro ks hk
    unfold madeByOthers
    rw [List.filterMap_eq_nil_iff]
    intro l hl
    cases l <;> first | rfl | skip
    exact absurd hl (hk _)
  obtain ⟨us, us', h, t, o, w1, o', w1', h1, h2, hr⟩ := h
  rw [hno _ fun w hw => hin w (List.mem_append_left _ hw)] at h1
  rw [hno _ fun w hw => hin w (List.mem_append_right _ hw)] at h2
  cases List.length_eq_zero_iff.1 h1
  cases List.length_eq_zero_iff.1 h2
  exact ⟨h, t, o, w1, o', w1', hr⟩

/-- **C94, partial** The requests of clients that keep out of each other's way are atomic, however they overlap: each
client has its own kind of calls of the operating system, those of different clients commute in the worlds that can be
reached (`ok`), and no other process interferes. -/
theorem C94_sorted_partial {host : Host ω H} {ok : ω → Prop} (hok : Kept host ok) (hh : host.Short) {user : GoString} (hu : user.length < 2 ^ 13)
    (root : GoString) (w : ω) (hw : ok w)
    (kind : Nat → HCall H → Prop) (hk : ∀ i j x y, i ≠ j → kind i x → kind j y → Commute host ok x y)
    (n n' : Busy ω H) (ls ls' : List (BLabel ω H)) (he : BExec host user (Busy.start root w) ls n) (he' : BExec host user n ls' n')
    (hs : Sorted kind (ls ++ ls')) (hf : BFit Ordinary n') : InOneOrder host user root w n n' ls ls' :=
  .of hs.1 <| C94_apart_partial hok hh hu root w hw n n' ls ls'
    (sorted_apart hk (by rw [List.nil_append]; exact ⟨fun x hx => hs.1 x (List.mem_append_left _ hx), fun i e hx => hs.2 i e (List.mem_append_left _ hx)⟩) he)
    (sorted_apart hk hs he') hf

/-! an instance: each client looks at and changes the attributes of its own file -/

/-- no two names of a file -/
def Single (w : Mem.World) : Prop := (∀ x ∈ w.names, ∀ y ∈ w.names, x.2 = y.2 → x.1 = y.1) ∧ ∀ x ∈ w.names, x.2 < w.next

theorem find_mem {p : GoString} {w : Mem.World} {i : Nat} (h : Mem.find p w = some i) : (p, i) ∈ w.names := by
  unfold Mem.find at h
  generalize w.names = l at h
  induction l with
  | nil => cases h
  | cons x l ih =>
    rw [List.lookup_cons] at h
    split at h
    · rename_i hx
      rw [beq_iff_eq] at hx
      cases h
      rw [hx]
      exact List.mem_cons_self ..
    · exact List.mem_cons_of_mem _ (ih h)

theorem single_kept : Kept Mem.shortHost Single := by
  intro x w h
  have same : ∀ w' : Mem.World, w'.names = w.names → w'.next = w.next → Single w' := by
    intro w' h1 h2
    unfold Single
    rw [h1, h2]
    exact h
  have add : ∀ p nd, Single (Mem.addNode p nd w) := by
    intro p nd
    constructor
    · intro x hx y hy hxy
      rcases List.mem_append.1 hx with hx | hx <;> rcases List.mem_append.1 hy with hy | hy
      · exact h.1 x hx y hy hxy
      · rw [List.mem_singleton.1 hy] at hxy
        exact absurd (h.2 x hx) (by dsimp only at hxy; omega)
      · rw [List.mem_singleton.1 hx] at hxy
        exact absurd (h.2 y hy) (by dsimp only at hxy; omega)
      · rw [List.mem_singleton.1 hx, List.mem_singleton.1 hy]
    · intro x hx
      show x.2 < w.next + 1
      rcases List.mem_append.1 hx with hx | hx
      · exact Nat.lt_succ_of_lt (h.2 x hx)
      · rw [List.mem_singleton.1 hx]; exact Nat.lt_succ_self _
  have onNode : ∀ p f, Single (Mem.onNode p f w).1 := by
    intro p f
    unfold Mem.onNode
    split <;> exact same _ rfl rfl
  have onHandle : ∀ {α : Type} (k : Nat) (bad : α) (f : Mem.Opened → Mem.World × α), (∀ o, Single (f o).1) → Single (Mem.onHandle k w bad f).1 := by
    intro α k bad f hf
    unfold Mem.onHandle
    split
    · split
      · exact hf _
      · exact h
    · exact h
  cases x with
  | lstat p => simp only [Host.exec, Mem.shortHost]; split <;> exact h
  | stat p => simp only [Host.exec, Mem.shortHost]; split <;> exact h
  | openFile p f m =>
    show Single (Mem.openFile p f m w).1
    unfold Mem.openFile
    split
    · split
      · exact h
      · dsimp only [Mem.addHandle]; split <;> exact same _ rfl rfl
    · split
      · exact add p { perm := m }
      · exact h
  | mkdir p m =>
    show Single (Mem.mkdir p m w).1
    unfold Mem.mkdir
    split
    · exact h
    · exact add _ _
  | chmod p m => exact onNode _ _
  | rename p q =>
    show Single (Mem.rename p q w).1
    unfold Mem.rename
    split
    · exact h
    · rename_i i hi
      have hm := find_mem hi
      have old : ∀ x ∈ w.names.filter (fun x => x.1 ≠ p ∧ x.1 ≠ q), x ∈ w.names ∧ x.2 ≠ i := by
        intro x hx
        obtain ⟨h1, h2⟩ := List.mem_filter.1 hx
        refine ⟨h1, fun hxi => ?_⟩
        have := h.1 x h1 _ hm hxi
        simp [this] at h2
      constructor
      · intro x hx y hy hxy
        rcases List.mem_append.1 hx with hx | hx <;> rcases List.mem_append.1 hy with hy | hy
        · exact h.1 x (old x hx).1 y (old y hy).1 hxy
        · rw [List.mem_singleton.1 hy] at hxy; exact absurd hxy (old x hx).2
        · rw [List.mem_singleton.1 hx] at hxy; exact absurd hxy.symm (old y hy).2
        · rw [List.mem_singleton.1 hx, List.mem_singleton.1 hy]
      · intro x hx
        rcases List.mem_append.1 hx with hx | hx
        · exact h.2 x (old x hx).1
        · rw [List.mem_singleton.1 hx]; exact h.2 (p, i) hm
  | truncate p n =>
    show Single (if n.toInt < 0 then _ else _ : Mem.World × Option GoString).1
    split
    · exact h
    · exact onNode _ _
  | chtimes p a m => exact onNode _ _
  | remove p =>
    show Single (Mem.remove p w).1
    unfold Mem.remove
    split
    · exact h
    · exact ⟨fun x hx y hy => h.1 x (List.mem_filter.1 hx).1 y (List.mem_filter.1 hy).1, fun x hx => h.2 x (List.mem_filter.1 hx).1⟩
  | close k => exact onHandle _ _ _ fun o => same _ rfl rfl
  | sync k => exact onHandle _ _ _ fun o => h
  | seek0 k => exact onHandle _ _ _ fun o => same _ rfl rfl
  | readdir1 k =>
    refine onHandle _ _ _ fun o => ?_
    split
    · exact h
    · exact same _ rfl rfl
  | readAt k n off =>
    refine onHandle _ _ _ fun o => ?_
    split <;> exact h
  | writeAt k b off =>
    refine onHandle _ _ _ fun o => ?_
    split
    · exact h
    · exact same _ rfl rfl

/-- the calls that look at or change the attributes of the file `p` -/
def AttrsOf (p : GoString) : HCall Nat → Prop
  | .lstat q => q = p
  | .stat q => q = p
  | .chmod q _ => q = p
  | .truncate q _ => q = p
  | .chtimes q _ _ => q = p
  | _ => False

/-- what the calls that look and those that change answer, given the node of the file -/
def lookAns (p : GoString) (o : Option (Nat × Mem.Node)) : Except GoString FileInfo :=
  if (Mem.base p).length ≤ 255 then (match o with
    | none => .error Mem.noent
    | some (i, nd) => .ok (Mem.info p i { names := [], nodes := fun _ => nd, next := 0, opened := [] })) else .error (lit "file name too long")
def changeAns (o : Option (Nat × Mem.Node)) : Option GoString := if o.isSome then none else some Mem.noent

/-- such a call only uses and changes the node of the file -/
theorem attrs_local {p : GoString} {x : HCall Nat} (h : AttrsOf p x) : ∃ (f : Mem.Node → Mem.Node) (ans : Option (Nat × Mem.Node) → x.Ans), ∀ w,
    Mem.shortHost.exec x w = ((Mem.find p w).elim w fun i => Mem.setNode i f w, ans ((Mem.find p w).map fun i => (i, w.nodes i))) := by
  have hid : ∀ (w : Mem.World) i, Mem.setNode i id w = w := by
    intro w i
    unfold Mem.setNode
    have : (fun j => if j = i then id (w.nodes i) else w.nodes j) = w.nodes := by
      funext j
      split
      · rename_i hj; rw [hj]; rfl
      · rfl
    rw [this]
  have hel : ∀ (w : Mem.World), ((Mem.find p w).elim w fun i => Mem.setNode i id w) = w := by
    intro w
    cases Mem.find p w with
    | none => rfl
    | some i => exact hid w i
  have look : ∀ w, (if (Mem.base p).length ≤ 255 then (w, Mem.stat p w) else (w, .error (lit "file name too long")) : Mem.World × Except GoString FileInfo) =
      (w, lookAns p ((Mem.find p w).map fun i => (i, w.nodes i))) := by
    intro w
    unfold lookAns
    split
    · unfold Mem.stat
      cases Mem.find p w <;> rfl
    · rfl
  have node : ∀ f : Mem.Node → Mem.Node, ∀ w, Mem.onNode p f w = ((Mem.find p w).elim w fun i => Mem.setNode i f w,
      changeAns ((Mem.find p w).map fun i => (i, w.nodes i))) := by
    intro f w
    unfold Mem.onNode
    cases Mem.find p w <;> rfl
  cases x with
  | lstat q => cases h; exact ⟨id, lookAns _, fun w => by rw [hel]; exact look w⟩
  | stat q => cases h; exact ⟨id, lookAns _, fun w => by rw [hel]; exact look w⟩
  | chmod q m => cases h; exact ⟨fun n => { n with perm := m }, changeAns, node _⟩
  | chtimes q a m => cases h; exact ⟨fun n => { n with atime := a, mtime := m }, changeAns, node _⟩
  | truncate q n =>
    cases h
    by_cases hn : n.toInt < 0
    · refine ⟨id, fun _ => some (lit "invalid argument"), fun w => ?_⟩
      rw [hel]
      exact if_pos hn
    · exact ⟨fun nd => { nd with data := Mem.resize n.toInt.toNat nd.data }, changeAns, fun w => (if_neg hn).trans (node _ w)⟩
  | openFile p f m => exact h.elim
  | mkdir p m => exact h.elim
  | rename p q => exact h.elim
  | remove p => exact h.elim
  | close k => exact h.elim
  | sync k => exact h.elim
  | seek0 k => exact h.elim
  | readdir1 k => exact h.elim
  | readAt k n off => exact h.elim
  | writeAt k b off => exact h.elim

theorem attrs_commute {p q : GoString} (hpq : p ≠ q) {x y : HCall Nat} (hx : AttrsOf p x) (hy : AttrsOf q y) : Commute Mem.shortHost Single x y := by
  obtain ⟨f, ansx, ex⟩ := attrs_local hx
  obtain ⟨g, ansy, ey⟩ := attrs_local hy
  intro w hw
  have hne : ∀ i j, Mem.find p w = some i → Mem.find q w = some j → i ≠ j := fun i j hi hj hij =>
    hpq (hw.1 _ (find_mem hi) _ (find_mem hj) hij)
  have e1 : ∀ r (o : Option Nat) f, Mem.find r (o.elim w fun i => Mem.setNode i f w) = Mem.find r w := by
    intro r o f; cases o <;> rfl
  rw [ex w, ey w, ex, ey]
  dsimp only
  rw [e1, e1]
  cases hp : Mem.find p w with
  | none =>
    cases hq : Mem.find q w with
    | none => exact ⟨rfl, rfl, rfl⟩
    | some j => exact ⟨rfl, rfl, rfl⟩
  | some i =>
    cases hq : Mem.find q w with
    | none => exact ⟨rfl, rfl, rfl⟩
    | some j =>
      have hij := hne i j hp hq
      refine ⟨?_, ?_, ?_⟩
      · simp [Mem.setNode, Ne.symm hij]
      · simp [Mem.setNode, hij]
      · simp only [Option.elim, Mem.setNode, if_neg hij, if_neg (Ne.symm hij)]
        congr 1
        funext k
        by_cases h1 : k = i
        · subst h1; simp [hij]
        · by_cases h2 : k = j
          · subst h2; simp [h1]
          · simp [h1, h2]

/-- the hypotheses of `C94_sorted_partial`: client `i` works on the attributes of the file with the name `i`, in a world in
which no file has two names -/
example (name : Nat → GoString) (hn : ∀ i j, i ≠ j → name i ≠ name j) : Kept Mem.shortHost Single ∧ Single Mem.world0 ∧
    ∀ i j x y, i ≠ j → AttrsOf (name i) x → AttrsOf (name j) y → Commute Mem.shortHost Single x y := by
  refine ⟨single_kept, ⟨?_, ?_⟩, fun i j x y hij hx hy => attrs_commute (hn i j hij) hx hy⟩
  · simp [Mem.world0]
  · simp [Mem.world0]

/-! ### requests that only look -/

/-- calls that ask about a name -/
def Peek : HCall H → Prop
  | .lstat _ => True
  | .stat _ => True
  | _ => False

theorem peek_same {host : Host ω H} (hq : host.Quiet) {x : HCall H} (h : Peek x) (w : ω) : (host.exec x w).1 = w := by
  cases x <;> first | exact h.elim | skip
  · exact hq.lstat _ w
  · exact hq.stat _ w

theorem peek_commute {host : Host ω H} (hq : host.Quiet) {x y : HCall H} (hx : Peek x) (hy : Peek y) : Commute host (fun _ => True) x y := by
  intro w _
  rw [peek_same hq hx w, peek_same hq hy w, peek_same hq hx w]
  exact ⟨rfl, rfl, rfl⟩

/-- the requests that only look: version, attach, flush, walk, stat -/
def Looks : TMsg → Prop
  | .version _ => True
  | .attach _ => True
  | .flush _ => True
  | .walk _ => True
  | .stat _ => True
  | _ => False

theorem peek_walkLoop {prev : Option (Ev H)} (p : GoString) (names : List GoString) :
    (pwalkLoop (H := H) p names).Safe (fun _ => Peek) (fun _ => True) prev := by
  induction names generalizing p prev with
  | nil => trivial
  | cons n ns ih =>
    refine ⟨True.intro, fun r => ?_⟩
    cases r with
    | error e => trivial
    | ok st => exact (ih _).bind fun _ _ _ => trivial

theorem looks_peek (user : GoString) {m : TMsg} {o : Obj H} {t : Tag} (spare : Bytes) (hb : Looks m) (hl : (m.packet t).length < 2 ^ 32) :
    (pdispatch user o true ⟨[], (m.packet t).drop 5, spare⟩ ((m.packet t).getD 4 0)).Safe (fun _ => Peek) (fun _ => True) none := by
  obtain ⟨-, h2, h3⟩ := packet_framing m t hl
  rw [h2, h3]
  generalize (⟨[], m.body t, spare⟩ : Buffer) = buf
  have ty : ∀ m', PacketAsks m.ty buf m' → m'.ty = m.ty := by
    rintro m' ⟨m0, tag, e, b', h1, h2⟩
    rw [← h1]
    cases m0 <;> (obtain ⟨p, -, hp⟩ := map_done h2; rw [← hp]; rfl)
  have no : ∀ m', PacketAsks m.ty buf m' → Looks m' := by
    intro m' h
    have := ty m' h
    cases m <;> first | exact hb.elim | (cases m' <;> first | trivial | simp [TMsg.ty, TMsg.type] at this)
  refine safe_dispatch (W := fun _ => True) user true trivial none ?_ ?_ ?_ ?_ (fun p h => (no _ h).elim) (fun p h => (no _ h).elim) (fun p h => (no _ h).elim) ?_
    (fun p h => (no _ h).elim) (fun p h => (no _ h).elim) (fun p h => (no _ h).elim) (fun p h => (no _ h).elim)
  · intro p _; unfold pversion; split <;> trivial
  · intro p _
    unfold pattach
    split
    · trivial
    · refine ⟨trivial, fun r => ?_⟩
      cases r <;> trivial
  · intro p _; trivial
  · intro p _
    unfold pwalk
    split
    · trivial
    · split
      · split <;> trivial
      · refine (peek_walkLoop _ _).bind fun prev r _ => ?_
        obtain ⟨q, r⟩ := r
        cases r with
        | none => dsimp only; split <;> trivial
        | some x => dsimp only; split <;> trivial
  · intro p _
    unfold pstat
    split
    · trivial
    · refine ⟨trivial, fun r => ?_⟩
      cases r <;> trivial

/-- the server only looks -/
structure Looking (ls : List (BLabel ω H)) (n : Busy ω H) : Prop where
  running : ∀ i p, (n.con i).running = some p → ∃ prev, p.Safe (fun _ => Peek) (fun _ => True) prev
  calls : ∀ i e, BLabel.call i e ∈ ls → Peek e.1

theorem looking_step {host : Host ω H} {user : GoString} {ls : List (BLabel ω H)} {n n' : Busy ω H} {l : BLabel ω H} (h : Looking ls n)
    (hinv : ∀ i, Inv (n.cl i)) (hf : BFit Ordinary n) (hl : ∀ i c m, (n.cl i).msg c = some m → Looks m) (hs : BStep host user l n n') :
    Looking (ls ++ [l]) n' := by
  have old : ∀ l', (∀ i e, l' = BLabel.call i e → Peek e.1) → ∀ i e, BLabel.call i e ∈ ls ++ [l'] → Peek e.1 := by
    intro l' hl' i e he
    rcases List.mem_append.1 he with he | he
    · exact h.calls i e he
    · exact hl' i e (List.mem_singleton.1 he).symm
  cases hs with
  | other _ w => exact ⟨h.running, old _ (by simp)⟩
  | client _ i l cl' _ _ _ => exact ⟨h.running, old _ (by simp)⟩
  | start _ i c q y spare hw hn =>
    refine ⟨fun j p hr => ?_, old _ (by simp)⟩
    dsimp only at hr
    by_cases hj : j = i
    · subst hj
      rw [upd_same] at hr
      cases hr
      obtain ⟨m, t, -, hm, hq⟩ := (hinv j).wire (c, q) (by simp [hw])
      dsimp only at hm hq
      subst hq
      exact ⟨none, looks_peek user spare (hl j c m hm) ((hf j c m hm).2.2 t)⟩
    · rw [upd_other _ _ hj] at hr
      exact h.running j p hr
  | call _ i x k hc =>
    obtain ⟨prev, h1, h2⟩ := h.running i _ hc
    refine ⟨fun j p hr => ?_, old _ (fun i' e he => by cases he; exact h1)⟩
    dsimp only at hr
    by_cases hj : j = i
    · subst hj
      rw [upd_same] at hr
      cases hr
      exact ⟨_, h2 _⟩
    · rw [upd_other _ _ hj] at hr
      exact h.running j p hr
  | reply _ i c q y o v b hw hc =>
    refine ⟨fun j p hr => ?_, old _ (by simp)⟩
    dsimp only at hr
    by_cases hj : j = i
    · subst hj
      rw [upd_same] at hr
      cases hr
    · rw [upd_other _ _ hj] at hr
      exact h.running j p hr

theorem looks_apart {host : Host ω H} (hh : host.Short) (hq : host.Quiet) {user : GoString} (hu : user.length < 2 ^ 13) {o0 : Nat → Obj H} {w0 : ω}
    {ls ls' : List (BLabel ω H)} {n n' : Busy ω H} {h : List Ans} {o : Nat → Obj H} {w1 : ω} {pend : Nat → List Ans} {L : List (Nat × Ev H)}
    (hi : SInv host (fun _ => True) user o0 w0 ls n h o w1 pend L) (hlk : Looking ls n) (he : BExec host user n ls' n') (hin : Inside (ls ++ ls')) (hf : BFit Ordinary n')
    (hl : ∀ i c m, (n'.cl i).msg c = some m → Looks m) :
    Apart host (fun _ => True) user ls n ls' n' ∧ Looking (ls ++ ls') n' := by
  have hfr : ∀ {b : Busy ω H} {bs : List (BLabel ω H)}, BExec host user n bs b → ∀ i, Fresh (b.cl i) := by
    intro b bs h
    induction h with
    | refl => exact fun i c hc => (hi.inv i).idle c hc
    | step _ hs ih => exact (busy_fresh ih hs).1
  induction he with
  | refl => exact ⟨.refl, by rwa [List.append_nil]⟩
  | @step n1 n2 ls1 l he hs ih =>
    have hm := (busy_fresh (hfr he) hs).2
    have hf1 : BFit Ordinary n1 := fun i c m h => hf i c m (hm i c m h)
    have hl1 : ∀ i c m, (n1.cl i).msg c = some m → Looks m := fun i c m h => hl i c m (hm i c m h)
    have hin1 : Inside (ls ++ ls1) := fun w hw => hin w (by rw [← List.append_assoc]; exact List.mem_append_left _ hw)
    obtain ⟨ha, hk⟩ := ih hin1 hf1 hl1
    obtain ⟨-, -, t, o', w1', pend', L', hi', -⟩ := apart_exec (fun _ _ _ => trivial) hh hu hi ha hf1
    have hk' := looking_step hk hi'.inv hf1 hl1 hs
    rw [List.append_assoc] at hk'
    refine ⟨.step ha hs ?_, hk'⟩
    cases l with
    | call j e' =>
      exact fun i hij e he => commute_waits (peek_commute hq (hk.calls i e (unfinished_mem he)) (hk'.calls j e' (by simp)))
    | other w' => exact absurd (by simp) (hin w')
    | start j => trivial
    | reply j => trivial
    | client j l => trivial

/-- **C94, partial** Requests that only look (version, attach, flush, walk, stat) are atomic however they overlap, when
asking about names changes nothing and no other process changes anything. -/
theorem C94_looks_partial {host : Host ω H} (hh : host.Short) (hq : host.Quiet) {user : GoString} (hu : user.length < 2 ^ 13) (root : GoString) (w : ω)
    (n n' : Busy ω H) (ls ls' : List (BLabel ω H)) (he : BExec host user (Busy.start root w) ls n) (he' : BExec host user n ls' n')
    (hin : Inside (ls ++ ls')) (hf : BFit Ordinary n') (hl : ∀ i c m, (n'.cl i).msg c = some m → Looks m) :
    InOneOrder host user root w n n' ls ls' := by
  have hin0 : Inside ls := fun w hw => hin w (List.mem_append_left _ hw)
  have h0 : Looking [] (Busy.start (H := H) root w) := ⟨fun i p hr => (by cases hr), by simp⟩
  have hfr : ∀ {a b : Busy ω H} {bs : List (BLabel ω H)}, (∀ i, Fresh (a.cl i)) → BExec host user a bs b → (∀ i, Fresh (b.cl i)) ∧
      ∀ i c m, (a.cl i).msg c = some m → (b.cl i).msg c = some m := by
    intro a b bs h0 h
    induction h with
    | refl => exact ⟨h0, fun _ _ _ hm => hm⟩
    | step _ hs ih => exact ⟨(busy_fresh ih.1 hs).1, fun i c m hm => (busy_fresh ih.1 hs).2 i c m (ih.2 i c m hm)⟩
  have hm := (hfr (hfr (fun _ _ _ => rfl) he).1 he').2
  have hfn : BFit Ordinary n := fun i c m h => hf i c m (hm i c m h)
  obtain ⟨a1, k1⟩ := looks_apart hh hq hu (sInv_start host user root w trivial) h0 he hin0 hfn fun i c m h => hl i c m (hm i c m h)
  rw [List.nil_append] at k1
  obtain ⟨-, -, h, o, w1, pend, L, hi, -⟩ := apart_exec (fun _ _ _ => trivial) hh hu (sInv_start host user root w trivial) a1 hfn
  rw [List.nil_append, List.nil_append] at hi
  obtain ⟨a2, -⟩ := looks_apart hh hq hu hi k1 he' hin hf hl
  exact .of hin <| C94_apart_partial (fun _ _ _ => trivial) hh hu root w trivial n n' ls ls' a1 a2 hf

/-- asking about names changes nothing in the example world -/
theorem shortHost_quiet : Mem.shortHost.Quiet where
  lstat p w := by
    simp only [Mem.shortHost]
    split <;> rfl
  stat p w := by
    simp only [Mem.shortHost]
    split <;> rfl

/-- from a fid of "/x" to "/x/d" and back -/
def walkBack : TMsg := .walk { SFID := 0, NewFID := 1, Paths := [[100], [46, 46]] }

/-- the program for a walk, after decoding -/
theorem reqProg_walk (user : GoString) (o : Obj H) (p : TwalkPkt) (t : Tag) (hf : (TMsg.walk p).Fits) (hl : ((TMsg.walk p).packet t).length < 2 ^ 32) :
    reqProg user o (.walk p) t = psrv (fun b => .done p t none b) (fun p => pwalk p.SFID p.NewFID p.Paths) (fun b t q => marshalRwalk b t { QIDs := q })
      o true ⟨(TMsg.walk p).body t, [], []⟩ := by
  have hset : setTag (encodeT {} 0 (.walk p)).bytes t = (TMsg.walk p).packet t := by
    rw [C04_wire_layout.1]; exact setTag_packet _ _ _
  obtain ⟨-, h2, h3⟩ := packet_framing _ t hl
  have hd := (lawsT (.walk p)).fwd hf [] [] t
  obtain ⟨p', h4, h5⟩ := map_done hd
  cases h5
  unfold reqProg
  rw [hset, h2, h3]
  have table : pdispatch user o true ⟨[], (TMsg.walk p).body t, []⟩ (TMsg.walk p).ty =
      psrv unmarshalTwalk (fun p => pwalk p.SFID p.NewFID p.Paths) (fun b t q => marshalRwalk b t { QIDs := q }) o true ⟨[], (TMsg.walk p).body t, []⟩ := by
    unfold pdispatch
    split
    · rfl
    · rw [if_neg (by simp)]; rfl
  rw [table]
  unfold psrv
  rw [h4, List.nil_append]

theorem walks_facts : ∃ o0 v0 b0, progSteps Mem.shortHost 1 (reqProg (lit "harvey") (newObj [47, 120]) attachDir 1) Mem.world0 = (.ret (o0, v0, b0), Mem.world0) ∧
    pktTag b0.bytes = 1 ∧
    ∃ p w1 p' w2 o1 v1 b1 w3 o2 v2 b2, progSteps Mem.shortHost 1 (reqProg (lit "harvey") o0 walkBack 2) Mem.world0 = (p, w1) ∧
      progSteps Mem.shortHost 1 (reqProg (lit "harvey") o0 walkBack 2) w1 = (p', w2) ∧
      progSteps Mem.shortHost 1 p w2 = (.ret (o1, v1, b1), w3) ∧ pktTag b1.bytes = 2 ∧
      (progSteps Mem.shortHost 1 p' w3).1 = .ret (o2, v2, b2) ∧ pktTag b2.bytes = 2 ∧ (∃ x k, p = .call x k) ∧ ∃ x k, p' = .call x k := by
  refine ⟨_, _, _, rfl, by decide, ?_⟩
  unfold walkBack
  simp only [reqProg_walk _ _ _ _ (show (TMsg.walk { SFID := 0, NewFID := 1, Paths := [[100], [46, 46]] }).Fits by simp [TMsg.Fits])
    (show ((TMsg.walk { SFID := 0, NewFID := 1, Paths := [[100], [46, 46]] }).packet 2).length < 2 ^ 32 by
      simp [TMsg.packet, Spec.packet, TMsg.body, TMsg.fields, str])]
  refine ⟨_, _, _, _, _, _, _, _, _, _, _, rfl, rfl, rfl, by decide, rfl, by decide, ⟨_, _, rfl⟩, _, _, rfl⟩

/-- two clients walk at the same time: the server asks for the first name of one walk, for the first name of the other, and
only then for the second names -/
example : ∃ (m n : Busy Mem.World Nat) (ls ls' : List (BLabel Mem.World Nat)) (b b' : Bytes),
    BExec Mem.shortHost (lit "harvey") (Busy.start [47, 120] Mem.world0) ls m ∧ BExec Mem.shortHost (lit "harvey") m ls' n ∧ Inside (ls ++ ls') ∧ BFit Ordinary n ∧
    (∀ i c t, (n.cl i).msg c = some t → Looks t) ∧ (∃ x k, (m.con 0).running = some (.call x k)) ∧ (∃ x k, (m.con 1).running = some (.call x k)) ∧
    (n.cl 0).msg 1 = some walkBack ∧ (n.cl 1).msg 1 = some walkBack ∧ (n.cl 0).phase 1 = .done b ∧ (n.cl 1).phase 1 = .done b' := by
  obtain ⟨o0, v0, b0, f1, f2, p, w1, p', w2, o1, v1, b1, w3, o2, v2, b2, f3, f4, f5, f6, f7, f8, ⟨x, k, rfl⟩, x', k', rfl⟩ := walks_facts
  obtain ⟨ts, hts⟩ := init_two_tags
  have hlen := init_tags_length hts
  obtain ⟨n1, g1, a1, a2, a3, a4, a5, a6, a7, a8, a9⟩ := busy_whole (host := Mem.shortHost) (user := lit "harvey") (i := 0) 1
    (Busy.start [47, 120] Mem.world0) init_ready hts attachDir rfl f1 f2 (by decide) (by decide) hlen
  obtain ⟨n2, g2, c1, c2, c3, c4, c5, c6, c7, c8, c9⟩ := busy_whole (host := Mem.shortHost) (user := lit "harvey") (i := 1) (k := 0) (t := 1) 1 n1
    (by rw [a4 1 (by decide)]; exact init_ready) (by rw [a4 1 (by decide)]; exact hts) attachDir (by rw [a2 1 (by decide)]; rfl)
    (by rw [a2 1 (by decide), a3]; exact f1) f2 (by decide) (by decide) hlen
  have r0 : Ready (n2.cl 0) 1 := by rw [c4 0 (by decide)]; exact a5
  have t0 : (n2.cl 0).tags = 2 :: (ts ++ [1]) := by rw [c4 0 (by decide), a7]; rfl
  have hlen2 : (ts ++ [1]).length < NumTags := by rw [List.length_append]; exact hlen
  obtain ⟨n3, g3, d1, d2, d3, d4, d5, d6, d7⟩ := busy_ask (host := Mem.shortHost) (user := lit "harvey") (i := 0) n2 r0 t0 walkBack
  obtain ⟨n4, g4, e1, e2, e3, e4, e5, e6, e7⟩ := busy_ask (host := Mem.shortHost) (user := lit "harvey") (i := 1) (k := 1) (t := 2) (ts := ts ++ [1]) n3
    (by rw [d3 1 (by decide)]; exact c5) (by rw [d3 1 (by decide), c7]; rfl) walkBack
  have k0 : Asked (n4.cl 0) 1 walkBack 2 := by rw [e3 0 (by decide)]; exact d4
  have o40 : n4.con 0 = { obj := o0 } := by rw [e1, d1, c2 0 (by decide), a1]
  have o41 : n4.con 1 = { obj := o0 } := by rw [e1, d1, c1]
  have w4 : n4.world = Mem.world0 := by rw [e2, d2, c3]
  obtain ⟨n5, g5, h1, h2, h3, h4⟩ := busy_begin (host := Mem.shortHost) (user := lit "harvey") (i := 0) 1 n4 k0 (by rw [o40])
  rw [o40, w4, f3] at h3 h4
  dsimp only at h3 h4
  obtain ⟨n6, g6, i1, i2, i3, i4⟩ := busy_begin (host := Mem.shortHost) (user := lit "harvey") (i := 1) 1 n5 (by rw [h1]; exact e4) (by rw [h2 1 (by decide), o41])
  rw [h2 1 (by decide), o41, h3, f4] at i3 i4
  dsimp only at i3 i4
  have run0 : (n6.con 0).running = some (.call x k) := by rw [i2 0 (by decide), h4]
  have run1 : (n6.con 1).running = some (.call x' k') := by rw [i4]
  obtain ⟨n7, g7, j1, j2, j3, j4⟩ := busy_more (host := Mem.shortHost) (user := lit "harvey") (i := 0) 1 n6 _ run0
  rw [i3, f5] at j3 j4
  dsimp only at j3 j4
  obtain ⟨n8, g8, k1, k2, k3, k4⟩ := busy_more (host := Mem.shortHost) (user := lit "harvey") (i := 1) 1 n7 _ (by rw [j2 1 (by decide)]; exact run1)
  rw [j3, f7] at k4
  have q0 : n8.cl 0 = n3.cl 0 := by rw [k1, j1, i1, h1, e3 0 (by decide)]
  have q1 : n8.cl 1 = n4.cl 1 := by rw [k1, j1, i1, h1]
  obtain ⟨n9, g9, l1, l2, l3, l4, l5, l6, l7, l8⟩ := busy_tell (host := Mem.shortHost) (user := lit "harvey") (i := 1) (o := o2) (v := v2) (b := b2) n8
    (by rw [q1]; exact e4) (by rw [k4]) f8 (by decide) (by decide) (by rw [q1, e5]; exact hlen2)
  obtain ⟨n10, g10, p1, p2, p3, p4, p5, p6, p7, p8⟩ := busy_tell (host := Mem.shortHost) (user := lit "harvey") (i := 0) (o := o1) (v := v1) (b := b1) n9
    (by rw [l3 0 (by decide), q0]; exact d4) (by rw [l1, upd_other _ _ (by decide), k2 0 (by decide), j4]) f6 (by decide) (by decide)
    (by rw [l3 0 (by decide), q0, d5]; exact hlen2)
  obtain ⟨ls, hin, he⟩ := ((((g1.trans g2).trans g3).trans g4).trans g5).trans g6
  obtain ⟨ls', hin', he'⟩ := ((g7.trans g8).trans g9).trans g10
  have m0 : (n10.cl 0).msg = upd (upd init.msg 0 (some attachDir)) 1 (some walkBack) := by
    rw [p7, l3 0 (by decide), q0, d6, c4 0 (by decide), a8]; rfl
  have m1 : (n10.cl 1).msg = upd (upd init.msg 0 (some attachDir)) 1 (some walkBack) := by
    rw [p3 1 (by decide), l7, q1, e6, d3 1 (by decide), c8, a4 1 (by decide)]; rfl
  have mi : ∀ i, i ≠ 0 → i ≠ 1 → n10.cl i = init := fun i h0' h1' => by
    rw [p3 i h0', l3 i h1', k1, j1, i1, h1, e3 i h1', d3 i h0', c4 i h1', a4 i h0']; rfl
  have two : ∀ i c t, (n10.cl i).msg c = some t → t = attachDir ∨ t = walkBack := by
    have key : ∀ (s : Client.State), s.msg = upd (upd init.msg 0 (some attachDir)) 1 (some walkBack) → ∀ c t, s.msg c = some t → t = attachDir ∨ t = walkBack := by
      intro s hs c t ht
      rw [hs] at ht
      by_cases hc : c = 1
      · subst hc; simp [upd] at ht; exact .inr ht.symm
      · by_cases hc0 : c = 0
        · subst hc0; simp [upd] at ht; exact .inl ht.symm
        · simp [upd, hc, hc0, init] at ht
    intro i c t ht
    by_cases i0 : i = 0
    · subst i0; exact key _ m0 c t ht
    · by_cases i1 : i = 1
      · subst i1; exact key _ m1 c t ht
      · rw [mi i i0 i1] at ht; cases ht
  refine ⟨n6, n10, ls, ls', _, _, he, he', ?_, ?_, ?_, ⟨_, _, run0⟩, ⟨_, _, run1⟩, by rw [m0, upd_same], by rw [m1, upd_same], p5, by rw [p3 1 (by decide)]; exact l5⟩
  · intro w hw
    rcases List.mem_append.1 hw with h | h
    · exact hin w h
    · exact hin' w h
  · intro i c t ht
    rcases two i c t ht with rfl | rfl
    · simp [attachDir, Ordinary, TMsg.Fits, TMsg.packet, Spec.packet, TMsg.body, TMsg.fields, str]
    · simp [walkBack, Ordinary, TMsg.Fits, TMsg.packet, Spec.packet, TMsg.body, TMsg.fields, str]
  · intro i c t ht
    rcases two i c t ht with rfl | rfl <;> trivial

end Ninep.Client
