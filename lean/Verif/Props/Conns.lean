import Verif.Ufs.Conns
import Verif.Props.Debug
import Verif.Props.Ufs
import Verif.Props.Server
/-
Connections do not share fids (C23).
-/

namespace Ninep.Ufs
open Spec Debugfs

section
variable {ω H : Type} (host : Host ω H) (user rootPath : GoString) (debug : Bool)

/-- the actions of a process that starts with a new listener; between actions other processes may change
the world -/
inductive Run (w0 : ω) : List Act → Proc ω H → Prop
  | init : Run w0 [] { world := w0 }
  | act {as a p p'} : Run w0 as p → act host user rootPath debug p a = some p' → Run w0 (as ++ [a]) p'
  | other {as p} (w : ω) : Run w0 as p → Run w0 as { p with world := w }

/-- what belongs to connection `i`: the fid table and everything else in its `FileServer` object, its version
state, whether it is dead, and what was written to it -/
def Proc.view (p : Proc ω H) (i : Nat) : Option (Conn × Option (Obj H)) := p.conns[i]?.map fun c => (c, p.heap[c.ns]?)

/-- the actions on connection `i` -/
def Act.on : Act → Nat → Prop
  | .accept, _ => False
  | .packet j _ _ _ _, i => i = j
  | .hangup j, i => i = j

/-- pointers are valid, and no two connections have the same one -/
def Separate (p : Proc ω H) : Prop :=
  (∀ (i : Nat) (c : Conn), p.conns[i]? = some c → c.ns < p.heap.length) ∧
  ∀ (i j : Nat) (c d : Conn), p.conns[i]? = some c → p.conns[j]? = some d → c.ns = d.ns → i = j

theorem set_get {α : Type} {l : List α} {i j : Nat} {a c : α} (h : (l.set i a)[j]? = some c) :
    (i = j ∧ c = a ∧ i < l.length) ∨ (i ≠ j ∧ l[j]? = some c) := by
  by_cases hij : i = j
  · subst hij
    have hi : i < l.length := by
      have := (List.getElem?_eq_some_iff.1 h).1
      simpa using this
    rw [List.getElem?_set_self hi] at h
    exact .inl ⟨rfl, (Option.some.inj h).symm, hi⟩
  · rw [List.getElem?_set_ne hij] at h
    exact .inr ⟨hij, h⟩

theorem separate_set {p : Proc ω H} (h : Separate p) {i : Nat} {c c' : Conn} (hc : p.conns[i]? = some c) (hn : c'.ns = c.ns)
    {w : ω} {log : List Line} {hp : List (Obj H)} (hl : hp.length = p.heap.length) :
    Separate { world := w, log := log, heap := hp, conns := p.conns.set i c' } := by
  have key : ∀ (j : Nat) (d : Conn), (p.conns.set i c')[j]? = some d → ∃ d0 : Conn, p.conns[j]? = some d0 ∧ d0.ns = d.ns := by
    intro j d hd
    rcases set_get hd with ⟨rfl, rfl, _⟩ | ⟨_, hd⟩
    · exact ⟨c, hc, hn.symm⟩
    · exact ⟨d, hd, rfl⟩
  constructor
  · intro j d hd
    obtain ⟨d0, h1, h2⟩ := key j d hd
    show d.ns < hp.length
    rw [hl, ← h2]
    exact h.1 j d0 h1
  · intro j k d e hd he hde
    obtain ⟨d0, h1, h2⟩ := key j d hd
    obtain ⟨e0, h3, h4⟩ := key k e he
    exact h.2 j k d0 e0 h1 h3 (by rw [h2, h4, hde])

theorem separate_newConn {p : Proc ω H} (h : Separate p) : Separate (newConn rootPath p) := by
  have key : ∀ j (d : Conn), (p.conns ++ [{ ns := p.heap.length }])[j]? = some d →
      (p.conns[j]? = some d ∧ d.ns < p.heap.length) ∨ (j = p.conns.length ∧ d.ns = p.heap.length) := by
    intro j d hd
    rw [List.getElem?_append] at hd
    split at hd
    · exact .inl ⟨hd, h.1 j d hd⟩
    · have := List.getElem?_eq_some_iff.1 hd
      obtain ⟨hlt, he⟩ := this
      simp at hlt
      refine .inr ⟨by omega, ?_⟩
      have : j - p.conns.length = 0 := by omega
      simp [this] at he
      rw [← he]
  constructor
  · intro j d hd
    show d.ns < (p.heap ++ [newObj rootPath]).length
    rw [List.length_append]
    rcases key j d hd with ⟨_, h1⟩ | ⟨_, h1⟩
    · omega
    · simp [h1]
  · intro j k d e hd he hde
    rcases key j d hd with ⟨h1, h2⟩ | ⟨h1, h2⟩ <;> rcases key k e he with ⟨h3, h4⟩ | ⟨h3, h4⟩
    · exact h.2 j k d e h1 h3 hde
    · omega
    · omega
    · omega

/-- the cases of an action -/
theorem act_cases {p p' : Proc ω H} {a : Act} (h : act host user rootPath debug p a = some p') :
    (a = .accept ∧ p' = newConn rootPath p) ∨ p' = p ∨
    (∃ i c, a = .hangup i ∧ p.conns[i]? = some c ∧ p' = { p with conns := p.conns.set i { c with dead := true } }) ∨
    ∃ i t body spare written c o w log o' v b, a = .packet i t body spare written ∧ p.conns[i]? = some c ∧ c.dead = false ∧
      p.heap[c.ns]? = some o ∧
      dispatchIn host user debug p.world p.log o c.Versioned ⟨[], body, spare⟩ t = some (w, log, o', v, b) ∧
      p' = { world := w, log := log, heap := p.heap.set c.ns o',
             conns := p.conns.set i (if written then { c with Versioned := v, out := c.out ++ [b.bytes] }
                     else { c with Versioned := v, dead := true }) } := by
  cases a with
  | accept => cases h; exact .inl ⟨rfl, rfl⟩
  | hangup i =>
    unfold act at h
    dsimp only at h
    cases hc : p.conns[i]? with
    | none => rw [hc] at h; cases h; exact .inr (.inl rfl)
    | some c => rw [hc] at h; cases h; exact .inr (.inr (.inl ⟨i, c, rfl, hc, rfl⟩))
  | packet i t body spare written =>
    unfold act at h
    dsimp only at h
    cases hc : p.conns[i]? with
    | none => rw [hc] at h; cases h; exact .inr (.inl rfl)
    | some c =>
      rw [hc] at h
      dsimp only at h
      cases hd : c.dead with
      | true => rw [hd] at h; cases h; exact .inr (.inl rfl)
      | false =>
        rw [if_neg (by simp [hd])] at h
        cases ho : p.heap[c.ns]? with
        | none => rw [ho] at h; cases h
        | some o =>
          rw [ho] at h
          dsimp only at h
          cases hx : dispatchIn host user debug p.world p.log o c.Versioned ⟨[], body, spare⟩ t with
          | none => rw [hx] at h; cases h
          | some r =>
            obtain ⟨w, log, o', v, b⟩ := r
            rw [hx] at h
            cases h
            exact .inr (.inr (.inr ⟨i, t, body, spare, written, c, o, w, log, o', v, b, rfl, hc, hd, ho, hx, rfl⟩))

theorem run_separate {w0 : ω} {as : List Act} {p : Proc ω H} (h : Run host user rootPath debug w0 as p) : Separate p := by
  induction h with
  | init => exact ⟨fun i c h => by simp at h, fun i j c d h => by simp at h⟩
  | other w _ ih => exact ih
  | act _ ha ih =>
    rcases act_cases host user rootPath debug ha with ⟨_, rfl⟩ | rfl | ⟨i, c, _, hc, rfl⟩ |
      ⟨i, t, body, spare, written, c, o, w, log, o', v, b, _, hc, _, _, _, rfl⟩
    · exact separate_newConn rootPath ih
    · exact ih
    · exact separate_set (c' := { c with dead := true }) ih hc rfl rfl
    · exact separate_set ih hc (by split <;> rfl) (by simp)

/-- C23: whatever happens on other connections — packets, hang-ups, new connections, changes of the world —
the fid table and the version state of a connection, and what was written to it, stay the same. -/
theorem C23_frame {w0 : ω} {as : List Act} {p p' : Proc ω H} (hr : Run host user rootPath debug w0 as p) {i : Nat}
    (hi : i < p.conns.length) {a : Act} (ha : act host user rootPath debug p a = some p') (hon : ¬ a.on i) :
    p'.view i = p.view i := by
  have hs := run_separate host user rootPath debug hr
  rcases act_cases host user rootPath debug ha with ⟨_, rfl⟩ | rfl | ⟨j, c, rfl, hc, rfl⟩ |
      ⟨j, t, body, spare, written, c, o, w, log, o', v, b, rfl, hc, _, ho, _, rfl⟩
  · unfold Proc.view newConn
    dsimp only
    rw [List.getElem?_append_left hi]
    obtain ⟨c, hc⟩ : ∃ c, p.conns[i]? = some c := ⟨_, List.getElem?_eq_getElem hi⟩
    rw [hc]
    simp only [Option.map_some]
    rw [List.getElem?_append_left (hs.1 i c hc)]
  · rfl
  · unfold Proc.view
    dsimp only
    rw [List.getElem?_set_ne (fun h => hon h.symm)]
  · unfold Proc.view
    dsimp only
    rw [List.getElem?_set_ne (fun h => hon h.symm)]
    obtain ⟨d, hd⟩ : ∃ d, p.conns[i]? = some d := ⟨_, List.getElem?_eq_getElem hi⟩
    rw [hd]
    simp only [Option.map_some]
    rw [List.getElem?_set_ne]
    exact fun he => hon (hs.2 j i c d hc hd he).symm

/-- all that `Dispatch` can do to the file server: nothing, or what one request does -/
theorem dispatch_calls {σ : Type} (ns : NineServer σ) {s s' : Server σ} {b b' : Buffer} {t : MType} (h : dispatch ns s b t = .done s' b') :
    (s'.Versioned = (s.Versioned || t == MT.Tversion)) ∧
    (s'.ns = s.ns ∨ ∃ m, (s.Versioned = true ∨ t = MT.Tversion) ∧ m.ty = t ∧
      ((∃ r, call ns m s.ns = .ok s'.ns r) ∨ ∃ e, call ns m s.ns = .err s'.ns e)) := by
  by_cases hq : t.toNat ∈ requestTypes
  · obtain ⟨m, rfl⟩ := ty_of_mem hq
    by_cases hv : s.Versioned = true ∨ m.ty = MT.Tversion
    · rw [dispatch_request ns m s b hv] at h
      obtain ⟨m', tag, e, b1, r, hu, _, hver, hcall⟩ := handle_done h
      have hty := decT_ty m hu
      refine ⟨by rw [hver]; rcases hv with hv | hv <;> simp [hv], .inr ⟨m', hv, hty, ?_⟩⟩
      rcases hcall with h | ⟨x, h, _⟩
      · exact .inl ⟨r, h⟩
      · exact .inr ⟨x, h⟩
    · simp only [not_or, Bool.not_eq_true] at hv
      unfold dispatch at h
      rw [if_neg hv.2, if_pos hv.1] at h
      split at h
      · cases h; exact ⟨by simp [hv], .inl rfl⟩
      · cases h
  · have hne : ∀ n : MType, n.toNat ∈ requestTypes → t ≠ n := by
      rintro n hn rfl; exact hq hn
    unfold dispatch at h
    rw [if_neg (hne MT.Tversion (by decide))] at h
    have ht : (t == MT.Tversion) = false := by simp [hne MT.Tversion (by decide)]
    cases hv : s.Versioned with
    | false =>
      rw [if_pos hv] at h
      split at h
      · cases h; exact ⟨by simp [hv, ht], .inl rfl⟩
      · cases h
    | true =>
      rw [if_neg (by simp [hv])] at h
      unfold dispatchTable at h
      simp only [if_neg (hne MT.Tversion (by decide)), if_neg (hne MT.Tattach (by decide)),
        if_neg (hne MT.Tflush (by decide)), if_neg (hne MT.Twalk (by decide)), if_neg (hne MT.Topen (by decide)),
        if_neg (hne MT.Tcreate (by decide)), if_neg (hne MT.Tclunk (by decide)), if_neg (hne MT.Tstat (by decide)),
        if_neg (hne MT.Twstat (by decide)), if_neg (hne MT.Tremove (by decide)), if_neg (hne MT.Tread (by decide)),
        if_neg (hne MT.Twrite (by decide))] at h
      cases h
      exact ⟨by simp [hv], .inl rfl⟩

/-- the debugging wrapper makes no difference -/
theorem dispatchIn_plain {w : ω} {log : List Line} {o : Obj H} {v : Bool} {b : Buffer} {t : MType} {w' : ω} {log' : List Line}
    {o' : Obj H} {v' : Bool} {b' : Buffer} (h : dispatchIn host user debug w log o v b t = some (w', log', o', v', b')) :
    dispatch (ufs host user) ⟨o.into w, v⟩ b t = .done ⟨o'.into w', v'⟩ b' := by
  unfold dispatchIn at h
  cases debug with
  | false =>
    simp only [Bool.false_eq_true, if_false] at h
    split at h
    · cases h
    · rename_i s b1 hd
      rw [hd]
      cases h
      rfl
  | true =>
    simp only [if_true] at h
    have hsim := dispatch_sim (C61_transparent (ufs host user)) (s := ⟨(o.into w, log), v⟩) (t := ⟨o.into w, v⟩) ⟨rfl, rfl⟩ b t
    split at h
    · cases h
    · rename_i s b1 hd
      rw [hd] at hsim
      cases hp : dispatch (ufs host user) ⟨o.into w, v⟩ b t with
      | panic => rw [hp] at hsim; exact hsim.elim
      | done s2 b2 =>
        rw [hp] at hsim
        obtain ⟨⟨h1, h2⟩, rfl⟩ := hsim
        cases h
        have h2 : s.ns.1 = s2.ns := h2
        obtain ⟨n2, v2⟩ := s2
        dsimp only at h1 h2
        rw [h1, h2]
        rfl

theorem Hist.snoc {P : State ω H → TMsg → Prop} {R : ω → ω → Prop} {s s1 : State ω H} {h : List Event}
    (hh : Hist host user P R s h s1) {h2 : List Event} {s2 : State ω H} (h' : Hist host user P R s1 h2 s2) :
    Hist host user P R s (h ++ h2) s2 := by
  induction hh with
  | nil s => exact h'
  | ok hp hc _ ih => exact .ok hp hc (ih h')
  | err hp hc _ ih => exact .err hp hc (ih h')
  | other w hr _ ih => exact .other w hr (ih h')

/-- C23: each connection lives through a history of its own, in which all other connections are nothing but
"other processes".  So everything proved about such histories holds for each of many connections. -/
theorem C23_history {w0 : ω} {as : List Act} {p : Proc ω H} (hr : Run host user rootPath debug w0 as p) {i : Nat} {c : Conn}
    (hc : p.conns[i]? = some c) :
    ∃ o w1 h, p.heap[c.ns]? = some o ∧ Hist host user AnyReq AnyWorld (newFS rootPath w1) h (o.into p.world) := by
  induction hr generalizing i c with
  | init => simp at hc
  | other w _ ih =>
    obtain ⟨o, w1, h, h1, h2⟩ := ih hc
    exact ⟨o, w1, h, h1, by have := h2.snoc host user (.other w trivial (.nil _)); rw [List.append_nil] at this; exact this⟩
  | @act as a p p' hr ha ih =>
    have hs := run_separate host user rootPath debug hr
    rcases act_cases host user rootPath debug ha with ⟨_, rfl⟩ | rfl | ⟨j, d, rfl, hd, rfl⟩ |
      ⟨j, t, body, spare, written, d, o, w, log, o', v, b, rfl, hd, _, ho, hx, rfl⟩
    · have hc : (p.conns ++ [{ ns := p.heap.length }])[i]? = some c := hc
      rw [List.getElem?_append] at hc
      split at hc
      · obtain ⟨o, w1, h, h1, h2⟩ := ih hc
        exact ⟨o, w1, h, by show (p.heap ++ _)[c.ns]? = _; rw [List.getElem?_append_left (hs.1 i c hc), h1], h2⟩
      · obtain ⟨hlt, he⟩ := List.getElem?_eq_some_iff.1 hc
        have h0 : i - p.conns.length = 0 := by simp at hlt; omega
        simp only [h0, List.getElem_cons_zero] at he
        subst he
        exact ⟨newObj rootPath, p.world, [], by simp [newConn], .nil _⟩
    · exact ih hc
    · rcases set_get hc with ⟨rfl, rfl, _⟩ | ⟨_, hc⟩
      · exact ih (c := d) hd
      · exact ih hc
    · have hdisp := dispatchIn_plain host user debug hx
      obtain ⟨_, hcall⟩ := dispatch_calls (ufs host user) hdisp
      rcases set_get hc with ⟨rfl, rfl, hlt⟩ | ⟨hne, hc⟩
      · obtain ⟨o1, w1, h, h1, h2⟩ := ih (c := d) hd
        rw [ho] at h1
        cases h1
        have hn : ∀ x : Conn, x = (if written = true then { d with Versioned := v, out := d.out ++ [b.bytes] } else { d with Versioned := v, dead := true }) →
            x.ns = d.ns := by
          rintro x rfl; split <;> rfl
        refine ⟨o', w1, ?_⟩
        rw [hn _ rfl]
        have hget : (p.heap.set d.ns o')[d.ns]? = some o' := List.getElem?_set_self (hs.1 _ d hd)
        rcases hcall with hsame | ⟨m, _, _, ⟨r, hm⟩ | ⟨e, hm⟩⟩
        · have hsame : o'.into w = o.into p.world := hsame
          exact ⟨h, hget, by show Hist host user _ _ _ h (o'.into w); rw [hsame]; exact h2⟩
        · exact ⟨h ++ [⟨m, .ok r⟩], hget, h2.snoc host user (.ok trivial hm (.nil _))⟩
        · exact ⟨h ++ [⟨m, .error e⟩], hget, h2.snoc host user (.err trivial hm (.nil _))⟩
      · obtain ⟨o1, w1, h, h1, h2⟩ := ih hc
        refine ⟨o1, w1, h, ?_, by have := h2.snoc host user (.other w trivial (.nil _)); rw [List.append_nil] at this; exact this⟩
        show (p.heap.set d.ns o')[c.ns]? = some o1
        rw [List.getElem?_set_ne]
        · exact h1
        · exact fun he => hne (hs.2 j i d c hd hc he)

/-- C23: a connection is versioned only by a Tversion that arrived on it -/
theorem C23_version {w0 : ω} {as : List Act} {p : Proc ω H} (hr : Run host user rootPath debug w0 as p) {i : Nat} {c : Conn}
    (hc : p.conns[i]? = some c) (hv : c.Versioned = true) :
    ∃ body spare written, Act.packet i MT.Tversion body spare written ∈ as := by
  induction hr generalizing i c with
  | init => simp at hc
  | other w _ ih => exact ih hc hv
  | @act as a p p' hr ha ih =>
    have keep : (∃ body spare written, Act.packet i MT.Tversion body spare written ∈ as) →
        ∃ body spare written, Act.packet i MT.Tversion body spare written ∈ as ++ [a] := by
      rintro ⟨x, y, z, h⟩; exact ⟨x, y, z, List.mem_append_left _ h⟩
    rcases act_cases host user rootPath debug ha with ⟨_, rfl⟩ | rfl | ⟨j, d, _, hd, rfl⟩ |
      ⟨j, t, body, spare, written, d, o, w, log, o', v, b, rfl, hd, _, ho, hx, rfl⟩
    · have hc : (p.conns ++ [{ ns := p.heap.length }])[i]? = some c := hc
      rw [List.getElem?_append] at hc
      split at hc
      · exact keep (ih hc hv)
      · have := List.mem_of_getElem? hc
        rw [List.mem_singleton] at this
        subst this
        cases hv
    · exact keep (ih hc hv)
    · rcases set_get hc with ⟨rfl, rfl, _⟩ | ⟨_, hc⟩
      · exact keep (ih (c := d) hd hv)
      · exact keep (ih hc hv)
    · rcases set_get hc with ⟨rfl, rfl, _⟩ | ⟨_, hc⟩
      · have hv' : v = true := by
          cases written <;> exact hv
        subst hv'
        have hdisp := dispatchIn_plain host user debug hx
        have h1 := (dispatch_calls (ufs host user) hdisp).1
        dsimp only at h1
        cases hdv : d.Versioned with
        | true => exact keep (ih (c := d) hd hdv)
        | false =>
          rw [hdv] at h1
          have : t = MT.Tversion := by simpa using h1
          subst this
          exact ⟨body, spare, written, List.mem_append_right _ (List.mem_singleton.2 rfl)⟩
      · exact keep (ih hc hv)

/-! ### a connection alone -/

/-- number of connections accepted -/
def accepts : List Act → Nat
  | [] => 0
  | .accept :: as => accepts as + 1
  | .packet .. :: as => accepts as
  | .hangup _ :: as => accepts as

/-- What happened to connection `i`, if `n` connections had been accepted before: its being accepted, its
packets and its hang-ups, as actions of a process with this connection only. -/
def own (i : Nat) : Nat → List Act → List Act
  | _, [] => []
  | n, .accept :: as => (if n = i then [.accept] else []) ++ own i (n + 1) as
  | n, .packet j t body spare written :: as => (if j = i ∧ i < n then [.packet 0 t body spare written] else []) ++ own i n as
  | n, .hangup j :: as => (if j = i ∧ i < n then [.hangup 0] else []) ++ own i n as

theorem own_append (i n : Nat) (as bs : List Act) : own i n (as ++ bs) = own i n as ++ own i (n + accepts as) bs := by
  induction as generalizing n with
  | nil => rfl
  | cons a as ih =>
    cases a <;> simp only [List.cons_append, own, accepts, ih, List.append_assoc]
    · congr 3; omega

theorem accepts_append (as bs : List Act) : accepts (as ++ bs) = accepts as + accepts bs := by
  induction as with
  | nil => simp [accepts]
  | cons a as ih => cases a <;> simp only [List.cons_append, accepts, ih] <;> omega

theorem run_length {w0 : ω} {as : List Act} {p : Proc ω H} (h : Run host user rootPath debug w0 as p) : p.conns.length = accepts as := by
  induction h with
  | init => rfl
  | other w _ ih => exact ih
  | @act as a p p' _ ha ih =>
    rw [accepts_append]
    cases a with
    | accept => cases ha; simp [newConn, accepts, ih]
    | _ =>
      rcases act_cases host user rootPath debug ha with ⟨h, _⟩ | rfl | ⟨i, c, _, hc, rfl⟩ |
        ⟨i, t, body, spare, written, c, o, w, log, o', v, b, _, hc, _, _, _, rfl⟩
      · cases h
      all_goals simpa [accepts] using ih

/-- a plain file server has the same effect -/
theorem dispatchIn_of_plain {w : ω} {o : Obj H} {v : Bool} {b : Buffer} {t : MType} {w' : ω} {o' : Obj H} {v' : Bool} {b' : Buffer}
    (log : List Line) (h : dispatch (ufs host user) ⟨o.into w, v⟩ b t = .done ⟨o'.into w', v'⟩ b') :
    dispatchIn host user false w log o v b t = some (w', log, o', v', b') := by
  unfold dispatchIn
  simp only [Bool.false_eq_true, if_false, h]
  rfl

/-- C23: a connection cannot tell that there are others.  For every connection of a process there is a run
of a process with this connection only, on which the same packets arrive, that ends with the same fid table,
the same version state and the same replies written, and in the same world; what the other connections did
to the world appears there as the doing of other processes. -/
theorem C23_alone {w0 : ω} {as : List Act} {p : Proc ω H} (hr : Run host user rootPath debug w0 as p) {i : Nat} {c : Conn}
    (hc : p.conns[i]? = some c) :
    ∃ w1 p1, Run host user rootPath false w1 (own i 0 as) p1 ∧ p1.world = p.world ∧
      ∃ o, p.heap[c.ns]? = some o ∧ p1.heap = [o] ∧ p1.conns = [{ c with ns := 0 }] := by
  induction hr generalizing i c with
  | init => simp at hc
  | other w _ ih =>
    obtain ⟨w1, p1, h1, h2, o, h3, h4, h5⟩ := ih hc
    exact ⟨w1, { p1 with world := w }, .other w h1, rfl, o, h3, h4, h5⟩
  | @act as a p p' hr ha ih =>
    have hs := run_separate host user rootPath debug hr
    have hlen := run_length host user rootPath debug hr
    rw [own_append, Nat.zero_add, ← hlen]
    rcases act_cases host user rootPath debug ha with ⟨rfl, rfl⟩ | rfl | ⟨j, d, rfl, hd, rfl⟩ |
      ⟨j, t, body, spare, written, d, o, w, log, o', v, b, rfl, hd, hdead, ho, hx, rfl⟩
    · have hc : (p.conns ++ [{ ns := p.heap.length }])[i]? = some c := hc
      rw [List.getElem?_append] at hc
      split at hc
      · rename_i hlt
        obtain ⟨w1, p1, h1, h2, o, h3, h4, h5⟩ := ih hc
        refine ⟨w1, p1, ?_, h2, o, ?_, h4, h5⟩
        · simp only [own]
          rw [if_neg (by omega)]
          simpa using h1
        · show (p.heap ++ _)[c.ns]? = _
          rw [List.getElem?_append_left (hs.1 i c hc), h3]
      · obtain ⟨hlt, he⟩ := List.getElem?_eq_some_iff.1 hc
        have h0 : i = p.conns.length := by simp at hlt; omega
        subst h0
        simp only [Nat.sub_self, List.getElem_cons_zero] at he
        subst he
        have hown : own p.conns.length 0 as = [] := by
          have : ∀ (as : List Act) (n : Nat), n + accepts as ≤ p.conns.length → own p.conns.length n as = [] := by
            intro as
            induction as with
            | nil => intros; rfl
            | cons a as ih =>
              intro n hn
              cases a with
              | accept =>
                simp only [accepts] at hn
                simp only [own]
                rw [if_neg (by omega), ih _ (by omega)]; rfl
              | packet j t b s w =>
                simp only [accepts] at hn
                simp only [own]
                rw [if_neg (by omega), ih _ hn]; rfl
              | hangup j =>
                simp only [accepts] at hn
                simp only [own]
                rw [if_neg (by omega), ih _ hn]; rfl
          exact this as 0 (by omega)
        rw [hown]
        simp only [own, if_true]
        exact ⟨p.world, newConn rootPath { world := p.world }, .act .init rfl, rfl, newObj rootPath,
          by simp [newConn], rfl, rfl⟩
    · -- nothing happened
      obtain ⟨w1, p1, h1, h2, o, h3, h4, h5⟩ := ih hc
      have hi : i < p'.conns.length := (List.getElem?_eq_some_iff.1 hc).1
      cases a with
      | accept =>
        rw [act] at ha
        have := congrArg (fun x => x.map fun p => p.conns.length) ha
        simp [newConn] at this
      | hangup j =>
        simp only [own]
        by_cases hj : j = i
        · subst hj
          rw [if_pos ⟨rfl, hi⟩]
          rw [act, hc] at ha
          have hdd : ({ c with dead := true } : Conn) = c := by
            have := congrArg (fun x => x.bind fun p => p.conns[j]?) ha
            simp [hc, List.getElem?_set_self hi] at this
            exact this
          refine ⟨w1, _, .act h1 (p' := p1) ?_, h2, o, h3, h4, h5⟩
          unfold act
          rw [h5]
          simp only [List.getElem?_cons_zero, List.set_cons_zero]
          have : ({ ns := 0, Versioned := c.Versioned, dead := true, out := c.out } : Conn) = { c with ns := 0 } := by
            rw [← hdd]
          rw [this, ← h5]
        · rw [if_neg (by rintro ⟨h, _⟩; exact hj h)]
          exact ⟨w1, p1, by simpa using h1, h2, o, h3, h4, h5⟩
      | packet j t body spare written =>
        simp only [own]
        by_cases hj : j = i
        · subst hj
          rw [if_pos ⟨rfl, hi⟩]
          by_cases hd : c.dead = true
          · refine ⟨w1, _, .act h1 (p' := p1) ?_, h2, o, h3, h4, h5⟩
            unfold act
            rw [h5]
            simp [hd]
          · -- the reply changed nothing, or the write failed
            rw [act, hc] at ha
            dsimp only at ha
            rw [if_neg (by simp [hd]), h3] at ha
            dsimp only at ha
            cases hx : dispatchIn host user debug p'.world p'.log o c.Versioned ⟨[], body, spare⟩ t with
            | none => rw [hx] at ha; cases ha
            | some r =>
              obtain ⟨w, log, o', v, b⟩ := r
              rw [hx] at ha
              have := congrArg (fun x => x.bind fun p => p.conns[j]?) ha
              simp [hc, List.getElem?_set_self hi] at this
              cases written with
              | true =>
                have := congrArg (fun c => c.out.length) this
                simp at this
              | false =>
                have := congrArg Conn.dead this
                simp [hd] at this
        · rw [if_neg (by rintro ⟨h, _⟩; exact hj h)]
          exact ⟨w1, p1, by simpa using h1, h2, o, h3, h4, h5⟩
    · -- a hang-up
      simp only [own]
      have hlt : j < p.conns.length := (List.getElem?_eq_some_iff.1 hd).1
      rcases set_get hc with ⟨rfl, rfl, _⟩ | ⟨hne, hc⟩
      · obtain ⟨w1, p1, h1, h2, o, h3, h4, h5⟩ := ih hd
        rw [if_pos ⟨rfl, hlt⟩]
        refine ⟨w1, { p1 with conns := [{ ns := 0, Versioned := d.Versioned, dead := true, out := d.out }] }, .act h1 ?_, h2, o, h3, h4, rfl⟩
        unfold act
        rw [h5]
        rfl
      · obtain ⟨w1, p1, h1, h2, o, h3, h4, h5⟩ := ih hc
        rw [if_neg (by rintro ⟨h, _⟩; exact hne h)]
        exact ⟨w1, p1, by simpa using h1, h2, o, h3, h4, h5⟩
    · -- a packet
      simp only [own]
      have hlt : j < p.conns.length := (List.getElem?_eq_some_iff.1 hd).1
      have hdisp := dispatchIn_plain host user debug hx
      rcases set_get hc with ⟨rfl, rfl, _⟩ | ⟨hne, hc⟩
      · obtain ⟨w1, p1, h1, h2, o1, h3, h4, h5⟩ := ih hd
        rw [ho] at h3
        cases h3
        rw [if_pos ⟨rfl, hlt⟩]
        let c' : Conn := if written then { ns := 0, Versioned := v, dead := d.dead, out := d.out ++ [b.bytes] }
          else { ns := 0, Versioned := v, dead := true, out := d.out }
        refine ⟨w1, { world := w, log := p1.log, heap := [o'], conns := [c'] }, .act h1 ?_, rfl, o', ?_, rfl, ?_⟩
        · unfold act
          rw [h5, h4, h2]
          simp only [List.getElem?_cons_zero, hdead, Bool.false_eq_true, if_false]
          rw [dispatchIn_of_plain host user p1.log hdisp]
          cases written <;> simp [c', hdead]
        · have hn : (if written = true then { d with Versioned := v, out := d.out ++ [b.bytes] } else { d with Versioned := v, dead := true } : Conn).ns = d.ns := by
            split <;> rfl
          rw [hn]
          exact List.getElem?_set_self (hs.1 _ d hd)
        · cases written <;> rfl
      · obtain ⟨w1, p1, h1, h2, o1, h3, h4, h5⟩ := ih hc
        rw [if_neg (by rintro ⟨h, _⟩; exact hne h)]
        refine ⟨w1, { p1 with world := w }, .other w (by simpa using h1), rfl, o1, ?_, h4, h5⟩
        show (p.heap.set d.ns o')[c.ns]? = some o1
        rw [List.getElem?_set_ne]
        · exact h3
        · exact fun he => hne (hs.2 j i d c hd hc he)

/-! ### C76 -/

/-- **C76** On a connection that has ended nothing is executed and nothing is written any more; but its
`FileServer` object also stays as it is for good, so (this is the part missing from the full statement,
`C76_counterexample`) the files that its fids have open are never closed. -/
theorem C76_ended_partial {w0 : ω} {as : List Act} {p p' : Proc ω H} (hr : Run host user rootPath debug w0 as p) {i : Nat} {c : Conn}
    (hc : p.conns[i]? = some c) (hd : c.dead = true) {a : Act} (ha : act host user rootPath debug p a = some p') :
    p'.view i = p.view i := by
  have hi : i < p.conns.length := (List.getElem?_eq_some_iff.1 hc).1
  by_cases hon : a.on i
  · cases a with
    | accept => exact hon.elim
    | packet j t body spare written =>
      cases hon
      unfold act at ha
      dsimp only at ha
      rw [hc] at ha
      simp [hd] at ha
      rw [ha]
    | hangup j =>
      cases hon
      unfold act at ha
      dsimp only at ha
      rw [hc] at ha
      cases ha
      unfold Proc.view
      dsimp only
      rw [List.getElem?_set_self hi, hc]
      cases c; cases hd; rfl
  · exact C23_frame host user rootPath debug hr hi ha hon

end

/-! ### Example: two connections, both attach fid 0, the first one gives its fid up again -/

open Mem

/-- actions one after the other -/
def acts (p : Proc Mem.World Nat) : List Act → Option (Proc Mem.World Nat)
  | [] => some p
  | a :: as =>
    match act Mem.host [103] [47, 120] true p a with
    | none => none
    | some p => acts p as

/-- a request on a connection -/
def pkt (i : Nat) (m : TMsg) : Act := .packet i m.ty ((m.packet 7).drop 5) [] true

def twoConns : List Act :=
  [.accept, .accept, pkt 0 (.version { TMsize := 8192, TVersion := lit "9P2000" }), pkt 1 (.version { TMsize := 8192, TVersion := lit "9P2000" }),
    pkt 0 attach0, pkt 1 attach0, pkt 0 (.clunk { OFID := 0 })]

example : (acts { world := demo.world } twoConns).map (fun p => (p.heap.map fun o => (o.files 0).isSome, p.conns.map fun c => c.Versioned)) =
    some ([false, true], [true, true]) := rfl

/-- C23_alone: what happened to connection 1 -/
example : own 1 0 twoConns = [.accept, pkt 0 (.version { TMsize := 8192, TVersion := lit "9P2000" }), pkt 0 attach0] := rfl

/-- **C76 is false**: a client opens a file and hangs up, and the file is still open. -/
theorem C76_counterexample :
    ((acts { world := demo.world } [.accept, pkt 0 (.version { TMsize := 8192, TVersion := lit "9P2000" }),
        pkt 0 attach0, pkt 0 walk1, pkt 0 open1, .hangup 0]).map
      fun p => (p.conns.map (·.dead), p.world.opened.map (·.isOpen))) = some ([true], [true]) := by decide +kernel

end Ninep.Ufs
