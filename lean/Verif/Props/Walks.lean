import Verif.Props.UfsPaths

set_option linter.unusedSimpArgs false
set_option linter.unusedVariables false

/-
Walks in several steps (C85): a walk is the same as two walks one after the other, and going down and up
again leads back.
-/

namespace Ninep.Ufs
open Spec

section
variable {ω H : Type} (host : Host ω H) (user : GoString)

theorem walkLoop_cons (p n : GoString) (w : ω) (ns : List GoString) :
    walkLoop host p w (n :: ns) = match host.lstat (pathJoin p n) w with
      | (w, .error _) => (w, [], none)
      | (w, .ok st) => ((walkLoop host (pathJoin p n) w ns).1, fileInfoToQID st :: (walkLoop host (pathJoin p n) w ns).2.1,
          (walkLoop host (pathJoin p n) w ns).2.2) := rfl

theorem walkLoop_append (p : GoString) (w : ω) (a b : List GoString) :
    walkLoop host p w (a ++ b) = match walkLoop host p w a with
      | (w1, qa, none) => (w1, qa, none)
      | (w1, qa, some p1) => ((walkLoop host p1 w1 b).1, qa ++ (walkLoop host p1 w1 b).2.1, (walkLoop host p1 w1 b).2.2) := by
  induction a generalizing p w with
  | nil => rfl
  | cons n ns ih =>
    rw [List.cons_append, walkLoop_cons, walkLoop_cons]
    cases hl : host.lstat (pathJoin p n) w with
    | mk w' r =>
      cases r with
      | error e => rfl
      | ok st =>
        dsimp only
        rw [ih]
        generalize walkLoop host (pathJoin p n) w' ns = r
        obtain ⟨w1, qa, o⟩ := r
        cases o <;> rfl

/-- what a walk of names does, in terms of the loop -/
theorem walk_eq {fid newfid : FID} {names : List GoString} {s : State ω H} {f : File H} (hf : s.files fid = some f)
    (hne : names ≠ []) : (ufs host user).Rwalk fid newfid names s = match walkLoop host f.fullName s.world names with
      | (w, q, none) => if q = [] then .err { s with world := w } (lit "file does not exist") else .ok { s with world := w } q
      | (w, q, some p) =>
        if fid ≠ newfid ∧ (s.files newfid).isSome then
          .err { s with world := w } (lit "FID in use: walk to " ++ fmtStrings names ++ lit ", fid " ++ dec fid.toNat ++
            lit ", newfid " ++ dec newfid.toNat)
        else .ok ({ s with world := w }.set newfid { fullName := p, qid := q.getLastD {} }) q := by
  show rwalk host fid newfid names s = _
  unfold rwalk
  rw [hf]
  dsimp only
  rw [if_neg hne]
  rfl

/-- the same for a fid that walks itself -/
theorem walk_self {fid : FID} {names : List GoString} {s : State ω H} {f : File H} (hf : s.files fid = some f)
    (hne : names ≠ []) : (ufs host user).Rwalk fid fid names s = match walkLoop host f.fullName s.world names with
      | (w, q, none) => if q = [] then .err { s with world := w } (lit "file does not exist") else .ok { s with world := w } q
      | (w, q, some p) => .ok ({ s with world := w }.set fid { fullName := p, qid := q.getLastD {} }) q := by
  rw [walk_eq host user hf hne]
  generalize walkLoop host f.fullName s.world names = r
  obtain ⟨w, q, o⟩ := r
  cases o with
  | none => rfl
  | some p => dsimp only; rw [if_neg (by simp)]

theorem walk_some {fid newfid : FID} {names : List GoString} {s s1 : State ω H} {q : List QID}
    (h : (ufs host user).Rwalk fid newfid names s = .ok s1 q) : ∃ f, s.files fid = some f := by
  have h : rwalk host fid newfid names s = .ok s1 q := h
  unfold rwalk at h
  split at h
  · cases h
  · exact ⟨_, by assumption⟩

/-- **C85** One walk is the same as two walks, the second from the fid the first one made.  If the first finds
all its names, then the long walk does what the second does, with the QIDs of both; only that, if the second
walk does not find all of its names, the long one makes no fid. -/
theorem C85_split {fid newfid : FID} {a b : List GoString} (ha : a ≠ []) (hb : b ≠ []) {s s1 : State ω H} {qa : List QID}
    (h1 : (ufs host user).Rwalk fid newfid a s = .ok s1 qa) (hlen : qa.length = a.length) :
    (∀ s2 qb, (ufs host user).Rwalk newfid newfid b s1 = .ok s2 qb →
      (ufs host user).Rwalk fid newfid (a ++ b) s =
        .ok (if qb.length = b.length then s2 else { s with world := s2.world }) (qa ++ qb)) ∧
    (∀ s2 e, (ufs host user).Rwalk newfid newfid b s1 = .err s2 e →
      (ufs host user).Rwalk fid newfid (a ++ b) s = .ok { s with world := s2.world } qa) := by
  obtain ⟨f, hf⟩ := walk_some host user h1
  rw [walk_eq host user hf ha] at h1
  rw [walk_eq host user hf (by simp [ha]), walkLoop_append]
  obtain ⟨l1, l2, l3, l4⟩ := walkLoop_spec host f.fullName s.world a
  generalize walkLoop host f.fullName s.world a = r at h1 l1 l3 l4
  obtain ⟨w1, q, o⟩ := r
  cases o with
  | none =>
    dsimp only at h1
    split at h1
    · cases h1
    · cases h1
      have := (l3 rfl).1
      dsimp only at this; omega
  | some p =>
    dsimp only at h1
    split at h1
    · cases h1
    rename_i hnew
    cases h1
    have hset : ({ s with world := w1 }.set newfid { fullName := p, qid := qa.getLastD {} } : State ω H).files newfid =
        some { fullName := p, qid := qa.getLastD {} } := set_same _ _ _
    rw [walk_self host user hset hb]
    dsimp only [State.set]
    obtain ⟨m1, m2, m3, m4⟩ := walkLoop_spec host p w1 b
    generalize walkLoop host p w1 b = r at m1 m3 m4
    obtain ⟨w2, qb, o⟩ := r
    have hqa : qa ≠ [] := fun h => ha (List.length_eq_zero_iff.1 (by rw [← hlen, h]; rfl))
    cases o with
    | none =>
      have hlt := (m3 rfl).1
      dsimp only at hlt ⊢
      by_cases hq : qb = []
      · rw [if_pos hq]
        refine ⟨fun s2 qb h => (by cases h), fun s2 e h => ?_⟩
        cases h
        rw [if_neg (by simp [hqa]), hq, List.append_nil]
      · rw [if_neg hq]
        refine ⟨fun s2 qb h => ?_, fun s2 e h => (by cases h)⟩
        cases h
        rw [if_neg (by simp [hqa]), if_neg (by omega)]
    | some p2 =>
      have hle := (m4 p2 rfl).1
      dsimp only at hle ⊢
      refine ⟨fun s2 qb h => ?_, fun s2 e h => (by cases h)⟩
      cases h
      have hqb : qb ≠ [] := fun h => hb (List.length_eq_zero_iff.1 (by rw [← hle, h]; rfl))
      rw [if_neg hnew, if_pos hle]
      have hl : (qa ++ qb).getLastD ({} : QID) = qb.getLastD {} := by
        rw [List.getLastD_eq_getLast?, List.getLastD_eq_getLast?, List.getLast?_append]
        cases h : qb.getLast? with
        | none => exact absurd (List.getLast?_eq_none_iff.1 h) hqb
        | some x => rfl
      rw [hl]
      congr 1
      simp only [State.set, State.mk.injEq, true_and, and_true]
      funext i
      split <;> rfl

/-- **C85** The other way round: a walk that finds all its names can be done in two steps, wherever the list of
names is cut. -/
theorem C85_join {fid newfid : FID} {a b : List GoString} (ha : a ≠ []) (hb : b ≠ []) {s s2 : State ω H} {q : List QID}
    (h : (ufs host user).Rwalk fid newfid (a ++ b) s = .ok s2 q) (hlen : q.length = (a ++ b).length) :
    ∃ s1 qa qb, (ufs host user).Rwalk fid newfid a s = .ok s1 qa ∧ (ufs host user).Rwalk newfid newfid b s1 = .ok s2 qb ∧
      q = qa ++ qb ∧ qa.length = a.length := by
  obtain ⟨f, hf⟩ := walk_some host user h
  have h0 := h
  rw [walk_eq host user hf (by simp [ha]), walkLoop_append] at h
  obtain ⟨l1, l2, l3, l4⟩ := walkLoop_spec host f.fullName s.world a
  have h1 := walk_eq host user (newfid := newfid) hf ha
  generalize walkLoop host f.fullName s.world a = r at h h1 l1 l3 l4
  obtain ⟨w1, qa, o⟩ := r
  rw [List.length_append] at hlen
  have hbl : 0 < b.length := List.length_pos_iff.2 hb
  cases o with
  | none =>
    have := (l3 rfl).1
    dsimp only at h this
    split at h <;> cases h
    omega
  | some p =>
    have hla := (l4 p rfl).1
    obtain ⟨m1, m2, m3, m4⟩ := walkLoop_spec host p w1 b
    dsimp only at h h1 hla
    generalize hr : walkLoop host p w1 b = r at h m1 m3 m4
    obtain ⟨w2, qb, o⟩ := r
    cases o with
    | none =>
      have := (m3 rfl).1
      dsimp only at h this
      split at h <;> cases h
      rw [List.length_append] at hlen
      omega
    | some p2 =>
      dsimp only at h
      split at h
      · cases h
      rename_i hnew
      rw [if_neg hnew] at h1
      cases h
      have hset : ({ s with world := w1 }.set newfid { fullName := p, qid := qa.getLastD {} } : State ω H).files newfid =
          some { fullName := p, qid := qa.getLastD {} } := set_same _ _ _
      have h2 := walk_self host user hset hb
      dsimp only [State.set] at h2
      rw [hr] at h2
      dsimp only at h2
      obtain ⟨g1, -⟩ := C85_split host user ha hb h1 hla
      have g := g1 _ _ h2
      rw [if_pos (m4 p2 rfl).1, h0] at g
      injection g with g g'
      refine ⟨_, qa, qb, h1, ?_, g', hla⟩
      rw [g]
      exact h2

/-- **C85** A walk that does not find one of the first names does not look at the others. -/
theorem C85_short {fid newfid : FID} {a b : List GoString} (ha : a ≠ []) {s s1 : State ω H} :
    (∀ qa, (ufs host user).Rwalk fid newfid a s = .ok s1 qa → qa.length < a.length →
      (ufs host user).Rwalk fid newfid (a ++ b) s = .ok s1 qa) ∧
    ((ufs host user).Rwalk fid newfid a s = .err s1 (lit "file does not exist") →
      (ufs host user).Rwalk fid newfid (a ++ b) s = .err s1 (lit "file does not exist")) := by
  constructor
  · intro qa h hlt
    obtain ⟨f, hf⟩ := walk_some host user h
    rw [walk_eq host user hf ha] at h
    rw [walk_eq host user hf (by simp [ha]), walkLoop_append]
    obtain ⟨l1, l2, l3, l4⟩ := walkLoop_spec host f.fullName s.world a
    generalize walkLoop host f.fullName s.world a = r at h l1 l3 l4
    obtain ⟨w1, q, o⟩ := r
    cases o with
    | none => exact h
    | some p =>
      have := (l4 p rfl).1
      dsimp only at h this
      split at h <;> cases h
      omega
  · intro h
    cases hf : s.files fid with
    | none =>
      have h : rwalk host fid newfid a s = .err s1 (lit "file does not exist") := h
      unfold rwalk at h
      rw [hf] at h
      injection h with _ h
      exact absurd h (by decide)
    | some f =>
      rw [walk_eq host user hf ha] at h
      rw [walk_eq host user hf (by simp [ha]), walkLoop_append]
      generalize walkLoop host f.fullName s.world a = r at h
      obtain ⟨w1, q, o⟩ := r
      cases o with
      | none => exact h
      | some p =>
        dsimp only at h
        split at h
        · injection h with _ h
          have := congrArg (List.take 1) h
          rw [List.append_assoc, List.append_assoc, List.append_assoc, List.append_assoc] at this
          rw [List.take_append_of_le_length (by decide)] at this
          exact absurd this (by decide)
        · cases h

/-- **C85** Walking by way of a clone is walking directly. -/
theorem C85_clone {fid newfid : FID} {b : List GoString} (hb : b ≠ []) {s s1 : State ω H}
    (h : (ufs host user).Rwalk fid newfid [] s = .ok s1 []) :
    (∀ s2 qb, (ufs host user).Rwalk newfid newfid b s1 = .ok s2 qb →
      (ufs host user).Rwalk fid newfid b s = .ok (if qb.length = b.length then s2 else { s with world := s2.world }) qb) ∧
    (∀ s2 e, (ufs host user).Rwalk newfid newfid b s1 = .err s2 e →
      (ufs host user).Rwalk fid newfid b s = .err { s with world := s2.world } e) := by
  obtain ⟨f, hf⟩ := walk_some host user h
  have h : rwalk host fid newfid [] s = .ok s1 [] := h
  unfold rwalk at h
  rw [hf] at h
  dsimp only at h
  rw [if_pos rfl] at h
  split at h
  · cases h
  rename_i hn
  cases h
  have hset : (s.set newfid f).files newfid = some f := set_same _ _ _
  rw [walk_self host user hset hb, walk_eq host user hf hb]
  dsimp only [State.set]
  obtain ⟨m1, m2, m3, m4⟩ := walkLoop_spec host f.fullName s.world b
  generalize walkLoop host f.fullName s.world b = r at m1 m3 m4
  obtain ⟨w2, qb, o⟩ := r
  cases o with
  | none =>
    have hlt := (m3 rfl).1
    dsimp only at hlt ⊢
    by_cases hq : qb = []
    · rw [if_pos hq, if_pos hq]
      refine ⟨fun s2 qb h => (by cases h), fun s2 e h => ?_⟩
      cases h; rfl
    · rw [if_neg hq, if_neg hq]
      refine ⟨fun s2 qb h => ?_, fun s2 e h => (by cases h)⟩
      cases h
      rw [if_neg (by omega)]
  | some p2 =>
    have hle := (m4 p2 rfl).1
    dsimp only at hle ⊢
    rw [if_neg (by simp [hn])]
    refine ⟨fun s2 qb h => ?_, fun s2 e h => (by cases h)⟩
    cases h
    rw [if_pos hle]
    congr 1
    simp only [State.set, State.mk.injEq, true_and, and_true]
    funext i
    split <;> rfl

theorem reach_up {root : Root} (hr : root.Proper) {p : GoString} (hp : Below root p) {n : GoString} (hn : Proper n) :
    reach p [n, [46, 46]] 2 = p := by
  obtain ⟨names, hnames, rfl⟩ := hp
  have he : allElems ([n, [46, 46]].take 2) = [n, [46, 46]] := by
    show elems n ++ (elems [46, 46] ++ []) = _
    have h1 : elems n = [n] := by simpa [elems_nil] using elems_elem_append (Proper.elem hn) [] (.inl rfl)
    have h2 : elems [46, 46] = [[46, 46]] := by
      simpa [elems_nil] using elems_elem_append (e := [46, 46]) ⟨by simp, by decide⟩ [] (.inl rfl)
    rw [h1, h2]; rfl
  cases root with
  | abs es =>
    have hes : ∀ e ∈ es ++ names, Proper e := below_proper hr hnames
    show reach (absPath (es ++ names)) _ _ = absPath (es ++ names)
    rw [C39_walk_place hes, he, place_cons, follow_of_proper hn, place_cons, follow_dotdot]
    simp [place]
  | rel q =>
    have hes : ∀ e ∈ q.names ++ names, Proper e := below_proper hr hnames
    show reach (RelPlace.path _) _ _ = RelPlace.path _
    rw [C39_walk_place_rel (p := { q with names := q.names ++ names }) hes, he]
    simp [RelPlace.place, RelPlace.follow, hn.2.2.1, hn.2.2.2]

/-- **C85** Going down to a name and up again leads back to where the walk began: the new fid stands for the same
path. -/
theorem C85_up {root : Root} (hr : root.Proper) {fid newfid : FID} {s s' : State ω H} {f : File H} (hf : s.files fid = some f)
    (hp : Below root f.fullName) {n : GoString} (hn : Proper n) {q : List QID} (hq : q.length = 2)
    (h : (ufs host user).Rwalk fid newfid [n, [46, 46]] s = .ok s' q) :
    ∃ f', s'.files newfid = some f' ∧ f'.fullName = f.fullName ∧ f'.file = none := by
  rw [walk_eq host user hf (by simp)] at h
  obtain ⟨l1, l2, l3, l4⟩ := walkLoop_spec host f.fullName s.world [n, [46, 46]]
  generalize walkLoop host f.fullName s.world [n, [46, 46]] = r at h l1 l3 l4
  obtain ⟨w1, q', o⟩ := r
  cases o with
  | none =>
    have := (l3 rfl).1
    dsimp only at h this
    split at h <;> cases h
    simp at this; omega
  | some p =>
    have := (l4 p rfl).2.1
    dsimp only at h
    split at h <;> cases h
    exact ⟨_, set_same _ _ _, this.trans (reach_up hr hp hn), rfl⟩

end

/-! ### Examples -/
open Mem

/-- C85: "x", "f" in one walk and in two, with and without a name that is not there -/
example : ∃ s1 s2 q1 q2, (ufs host [103]).Rwalk 0 1 [[120]] (runAll [.attach { SFID := 0, AFID := NOFID }] (newFS [47] world0)).2 = .ok s1 [q1] ∧
    (ufs host [103]).Rwalk 1 1 [[102]] s1 = .ok s2 [q2] ∧
    (ufs host [103]).Rwalk 0 1 [[120], [102]] (runAll [.attach { SFID := 0, AFID := NOFID }] (newFS [47] world0)).2 = .ok s2 [q1, q2] :=
  ⟨_, _, _, _, rfl, rfl, by
    have := (C85_split host [103] (fid := 0) (newfid := 1) (a := [[120]]) (b := [[102]]) (by simp) (by simp)
      (s := (runAll [.attach { SFID := 0, AFID := NOFID }] (newFS [47] world0)).2) rfl rfl).1 _ _ rfl
    exact this⟩

example : ∃ s1 q1 s2 e, (ufs host [103]).Rwalk 0 1 [[120]] (runAll [.attach { SFID := 0, AFID := NOFID }] (newFS [47] world0)).2 = .ok s1 [q1] ∧
    (ufs host [103]).Rwalk 1 1 [[113]] s1 = .err s2 e := ⟨_, _, _, _, rfl, rfl⟩

example : ∃ s1, (ufs host [103]).Rwalk 0 1 [] (runAll [attach0] demo).2 = .ok s1 [] := ⟨_, rfl⟩

/-- C85: "/x" is a place below the root "/x", and "f" is a name -/
example : Below (rootOf [47, 120]) [47, 120] ∧ (rootOf [47, 120]).Proper ∧ Proper [102] :=
  ⟨⟨[], by simp, by rw [root_x]; rfl⟩, rootOf_proper _, by unfold Proper; decide⟩

example : ∃ s' q, (ufs host [103]).Rwalk 0 1 [[100], [46, 46]] (runAll [attach0] demo).2 = .ok s' q ∧ q.length = 2 := ⟨_, _, rfl, rfl⟩

end Ninep.Ufs
