import Verif.Props.Calls
import Verif.Props.Create

set_option linter.unusedSimpArgs false
set_option linter.unusedVariables false

/-
Names with ".." that do not lead above the root (C39, C40).
-/

namespace Ninep.Spec

/-- following the elements one after the other, from so many levels below a place, never leads above that place -/
def stays : Nat → List Bytes → Bool
  | _, [] => true
  | d, e :: es =>
    if e = [46] then stays d es
    else if e = [46, 46] then d != 0 && stays (d - 1) es
    else stays (d + 1) es

end Ninep.Spec

namespace Ninep.Ufs
open Spec

/-! ### paths -/

theorem stays_place {es names l : List Bytes} (h : stays names.length l = true) : place (es ++ names) l = es ++ place names l := by
  induction l generalizing names with
  | nil => rfl
  | cons e l ih =>
    rw [place_cons, place_cons]
    unfold stays at h
    unfold follow
    by_cases h1 : e = [46]
    · rw [if_pos h1] at h ⊢
      rw [if_pos h1]
      exact ih h
    · rw [if_neg h1] at h ⊢
      rw [if_neg h1]
      by_cases h2 : e = [46, 46]
      · rw [if_pos h2] at h ⊢
        rw [if_pos h2]
        simp only [Bool.and_eq_true, bne_iff_ne, ne_eq] at h
        have hne : names ≠ [] := by rintro rfl; exact h.1 rfl
        rw [List.dropLast_append_of_ne_nil hne]
        exact ih (by rw [List.length_dropLast]; exact h.2)
      · rw [if_neg h2] at h ⊢
        rw [if_neg h2, List.append_assoc]
        exact ih (by simpa using h)

theorem stays_rel {u : Nat} {pn names l : List Bytes} (h : stays names.length l = true) :
    RelPlace.place ⟨u, pn ++ names⟩ l = ⟨u, pn ++ place names l⟩ := by
  induction l generalizing names with
  | nil => rfl
  | cons e l ih =>
    rw [RelPlace.place_cons, place_cons]
    unfold stays at h
    unfold RelPlace.follow follow
    by_cases h1 : e = [46]
    · rw [if_pos h1] at h ⊢
      rw [if_pos h1]
      exact ih h
    · rw [if_neg h1] at h ⊢
      rw [if_neg h1]
      by_cases h2 : e = [46, 46]
      · rw [if_pos h2] at h ⊢
        rw [if_pos h2]
        simp only [Bool.and_eq_true, bne_iff_ne, ne_eq] at h
        have hne : names ≠ [] := by rintro rfl; exact h.1 rfl
        rw [if_neg (by simp [hne])]
        dsimp only
        rw [List.dropLast_append_of_ne_nil hne]
        exact ih (by rw [List.length_dropLast]; exact h.2)
      · rw [if_neg h2] at h ⊢
        rw [if_neg h2]
        dsimp only
        rw [List.append_assoc]
        exact ih (by simpa using h)

/-- after some elements one is at the level the rest starts from -/
theorem stays_append {names a b : List Bytes} (h : stays names.length (a ++ b) = true) :
    stays names.length a = true ∧ stays (place names a).length b = true := by
  induction a generalizing names with
  | nil => exact ⟨rfl, h⟩
  | cons e a ih =>
    rw [List.cons_append] at h
    rw [place_cons]
    unfold stays at h
    rw [stays.eq_def names.length (e :: a)]
    dsimp only
    unfold follow
    by_cases h1 : e = [46]
    · rw [if_pos h1] at h ⊢
      rw [if_pos h1]
      exact ih h
    · rw [if_neg h1] at h ⊢
      rw [if_neg h1]
      by_cases h2 : e = [46, 46]
      · rw [if_pos h2] at h ⊢
        rw [if_pos h2]
        simp only [Bool.and_eq_true] at h ⊢
        have := ih (names := names.dropLast) (by rw [List.length_dropLast]; exact h.2)
        exact ⟨⟨h.1, by rw [← List.length_dropLast]; exact this.1⟩, this.2⟩
      · rw [if_neg h2] at h ⊢
        rw [if_neg h2]
        have := ih (names := names ++ [e]) (by simpa using h)
        exact ⟨by simpa using this.1, this.2⟩

/-- names without ".." stay -/
theorem stays_noUp {l : List Bytes} (h : [46, 46] ∉ l) (d : Nat) : stays d l = true := by
  induction l generalizing d with
  | nil => rfl
  | cons e l ih =>
    have h2 : e ≠ [46, 46] := by rintro rfl; exact h (by simp)
    have h' : [46, 46] ∉ l := fun x => h (List.mem_cons_of_mem _ x)
    unfold stays
    split
    · exact ih h' _
    · exact ih h' _

/-- `path.Join` with a name that stays -/
theorem under_stays {root : Root} (hr : root.Proper) {names : List Bytes} (hn : ∀ n ∈ names, Proper n) {n : Bytes}
    (h : stays names.length (elems n) = true) : pathJoin (root.under names) n = root.under (place names (elems n)) := by
  cases root with
  | abs es =>
    show pathJoin (absPath (es ++ names)) n = absPath (es ++ place names (elems n))
    rw [pathJoin_place (below_proper hr hn), stays_place h]
  | rel p =>
    show pathJoin (RelPlace.path ⟨p.ups, p.names ++ names⟩) n = RelPlace.path ⟨p.ups, p.names ++ place names (elems n)⟩
    rw [pathJoin_relPlace (below_proper hr hn), stays_rel h]

theorem reach_stays {root : Root} (hr : root.Proper) {names : List Bytes} (hn : ∀ n ∈ names, Proper n) {paths : List GoString}
    (h : stays names.length (allElems paths) = true) (k : Nat) :
    reach (root.under names) paths k = root.under (place names (allElems (paths.take k))) := by
  unfold reach
  induction paths generalizing names k with
  | nil => simp [allElems, place]
  | cons n l ih =>
    cases k with
    | zero => simp [allElems, place]
    | succ k =>
      have h : stays names.length (elems n ++ allElems l) = true := h
      obtain ⟨h1, h2⟩ := stays_append h
      rw [List.take_succ_cons, List.foldl_cons, under_stays hr hn h1, ih (place_proper hn (elems_elem n)) h2]
      show _ = root.under (place names (elems n ++ allElems (l.take k)))
      rw [place_append]

theorem allElems_elem (l : List GoString) : ∀ e ∈ allElems l, Elem e := by
  intro e he
  obtain ⟨n, _, h⟩ := List.mem_flatMap.1 he
  exact elems_elem n e h

/-! ### requests -/

variable {ω H : Type}

/-- A request with names that never lead above the root: "..", as often as one is levels below it.  A relative
new name must not be for the root itself. -/
def Modest (s : State ω H) : TMsg → Prop
  | .walk p => ∀ f names, s.files p.SFID = some f → (∀ n ∈ names, Proper n) → f.fullName = (rootPlace s).under names →
      stays names.length (allElems p.Paths) = true
  | .create p => ∀ f names, s.files p.OFID = some f → (∀ n ∈ names, Proper n) → f.fullName = (rootPlace s).under names →
      stays names.length (elems p.Name) = true
  | .wstat p => ∀ d t b, unmarshaldir (Buffer.ofBytes p.B) = .done d t none b →
      d.Name = [] ∨ (d.Name.head? = some 47 ∧ stays 0 (elems d.Name) = true) ∨
      (d.Name.head? ≠ some 47 ∧ ∀ f, s.files p.OFID = some f → f.fullName ≠ (rootPlace s).under [])
  | _ => True

/-- names without ".." are a special case -/
theorem Tame.modest {s : State ω H} {m : TMsg} (h : Tame s m) : Modest s m := by
  cases m with
  | walk p =>
    intro f names _ _ _
    refine stays_noUp (fun hm => ?_) _
    obtain ⟨n, hn, he⟩ := List.mem_flatMap.1 hm
    exact h n hn he
  | create p => exact fun f names _ _ _ => stays_noUp h _
  | wstat p =>
    intro d t b hd
    rcases h d t b hd with h | ⟨h1, h2⟩ | h
    · exact .inl h
    · exact .inr (.inl ⟨h1, stays_noUp h2 _⟩)
    · exact .inr (.inr h)
  | _ => trivial

theorem rootOf_join_stays (root : Bytes) {b : Bytes} (hb : b.head? = some 47) (h : stays 0 (elems b) = true) :
    pathJoin root b = (rootOf root).under (place [] (elems b)) := by
  rw [pathJoin_rootOf root hb]
  cases rootOf root with
  | abs es => exact congrArg absPath (by have := stays_place (es := es) (names := []) h; simpa using this)
  | rel p =>
    have := stays_rel (u := p.ups) (pn := p.names) (names := []) h
    exact congrArg RelPlace.path (by simpa using this)

theorem Modest.leads {s : State ω H} (hs : Inside s) {m : TMsg} (h : Modest s m) : Leads s m := by
  have hr := rootPlace_proper s
  cases m with
  | walk p =>
    intro f hf k
    obtain ⟨names, hn, he⟩ := hs _ _ hf
    exact ⟨_, place_proper hn (allElems_elem _), by rw [he]; exact reach_stays hr hn (h f names hf hn he) k⟩
  | create p =>
    intro f hf
    obtain ⟨names, hn, he⟩ := hs _ _ hf
    exact ⟨_, place_proper hn (elems_elem _), by rw [he]; exact under_stays hr hn (h f names hf hn he)⟩
  | wstat p =>
    intro f hf d t b hd
    rcases h d t b hd with h0 | ⟨h1, h2⟩ | h1
    · unfold wstatPath
      rw [if_neg (by simp [h0])]
      exact hs _ _ hf
    · unfold wstatPath
      have hne : d.Name ≠ [] := by intro e; rw [e] at h1; cases h1
      rw [if_pos hne]
      unfold renameTo
      have : isAbs d.Name = true := by
        revert h1
        unfold isAbs slash
        cases d.Name <;> simp
      rw [if_pos this]
      exact ⟨_, noRoot_proper _, rootOf_join_stays s.rootPath h1 h2⟩
    · by_cases hn : d.Name = []
      · unfold wstatPath
        rw [if_neg (by simp [hn])]
        exact hs _ _ hf
      · unfold wstatPath
        rw [if_pos hn]
        exact below_rename hs hf (.inr h1)
  | _ => trivial

section
variable (host host' : Host ω H) (user : GoString)

/-- C39: a history of requests whose names never lead above the root leaves every fid at or below the root.
(The full statement is about all names; see `C39_counterexample`, and `C39_walk_exact` for which names lead out.) -/
theorem C39_depth_partial {root : GoString} {w : ω} {s' : State ω H} {h : List Event}
    (hh : Hist host user Modest AnyWorld (newFS root w) h s') {i : FID} {f : File H} (hf : s'.files i = some f) :
    Below (rootOf root) f.fullName := by
  have hi := inside_hist user host (P := Modest) (fun _ _ hi h => h.leads hi) hh (inside_newFS root w)
  have hroot : s'.rootPath = root :=
    Hist.invariant host user (I := fun s => s.rootPath = root) (fun _ _ _ h => h)
      (fun s m s' _ hi hc => (call_frame host user hc).1.trans hi) hh rfl
  have := hi i f hf
  rwa [rootPlace, hroot] at this

/-- C39, C40: what is outside of the root plays no part in such a history -/
theorem C39_depth_confined_partial {root : GoString} (ha : AgreeBelow (rootOf root) host host') {w : ω} {s' : State ω H} {h : List Event}
    (hh : Hist host user Modest AnyWorld (newFS root w) h s') : Hist host' user Modest AnyWorld (newFS root w) h s' := by
  refine Hist.agree user host host' (I := fun s => Inside s ∧ s.rootPath = root) (fun s w _ h => h)
    (fun s m s' hp hi hc => ⟨inside_step user host (hp.leads hi.1) hi.1 hc, (call_frame host user hc).1.trans hi.2⟩)
    (fun s m hp hi => agree_step user host host' (hp.leads hi.1) hi.1 (by unfold rootPlace; rw [hi.2]; exact ha)) hh
    ⟨inside_newFS root w, rfl⟩

/-- C39, C40: however many connections there are and however their requests overlap, as long as the names in them
never lead above the root, only paths at or below the root are handed to the operating system -/
theorem C39_depth_calls_partial {rootPath : GoString} {w0 : ω} {ls : List (Label ω H)} {p : TProc ω H}
    (hr : TRunIf host user rootPath (fun o t body spare => ∀ m, PacketAsks t ⟨[], body, spare⟩ m → Modest o m) w0 ls p)
    {i : Nat} {e : Ev H} (he : Label.call i e ∈ ls) {x : GoString} (hx : x ∈ e.1.paths) : Below (rootOf rootPath) x :=
  (stays_inv host user rootPath (fun _ _ _ _ m hi h ha => (h m ha).leads hi) hr).1 i e he x hx

end

/-! ### exactly which walks lead out -/

/-- one level above a root other than "/" is not below it -/
theorem above_root {root : Root} (hr : root.Proper) (h : root ≠ .abs []) : ¬ Below root (pathJoin (root.under []) [46, 46]) := by
  have he : elems [46, 46] = [[46, 46]] := by decide +kernel
  rintro ⟨names, hn, h1⟩
  cases root with
  | abs es =>
    have hes : es ≠ [] := by rintro rfl; exact h rfl
    have h1 : pathJoin (absPath (es ++ [])) [46, 46] = absPath (es ++ names) := h1
    rw [List.append_nil, pathJoin_place hr, he] at h1
    have h2 := congrArg elems h1
    rw [show place es [[46, 46]] = es.dropLast from rfl,
      elems_absPath' fun e h => Proper.elem (hr e (List.dropLast_subset _ h)),
      elems_absPath' fun e h => Proper.elem (below_proper hr hn e h)] at h2
    have := congrArg List.length h2
    simp only [List.length_dropLast, List.length_append] at this
    have := List.length_pos_iff.2 hes
    omega
  | rel p =>
    have h1 : pathJoin (RelPlace.path ⟨p.ups, p.names ++ []⟩) [46, 46] = RelPlace.path ⟨p.ups, p.names ++ names⟩ := h1
    rw [List.append_nil, pathJoin_relPlace (p := p) hr, he] at h1
    have key {a b : RelPlace} (ha : ∀ e ∈ a.names, Proper e) (hb : ∀ e ∈ b.names, Proper e) (h : a.path = b.path) : a.elems = b.elems := by
      have el {c : RelPlace} (hc : ∀ e ∈ c.names, Proper e) : ∀ e ∈ c.elems, Elem e := by
        intro e he
        rcases List.mem_append.1 he with h | h
        · rw [(List.mem_replicate.1 h).2]; unfold Elem; decide
        · exact Proper.elem (hc e h)
      have dot {c : RelPlace} (hc : ∀ e ∈ c.names, Proper e) : [46] ∉ c.elems := by
        intro he
        rcases List.mem_append.1 he with h | h
        · exact absurd (List.mem_replicate.1 h).2 (by decide)
        · exact (hc _ h).2.2.1 rfl
      have ex {c : RelPlace} (hc : ∀ e ∈ c.names, Proper e) : elems c.path = if c.elems = [] then [[46]] else c.elems := by
        unfold RelPlace.path
        split
        · decide +kernel
        · exact elems_slashed (el hc)
      have h2 := congrArg elems h
      rw [ex ha, ex hb] at h2
      split at h2 <;> split at h2
      · simp_all
      · exact absurd (h2 ▸ List.mem_singleton.2 rfl) (dot hb)
      · exact absurd (h2 ▸ List.mem_singleton.2 rfl) (dot ha)
      · exact h2
    have hp : ∀ e ∈ (RelPlace.place p [[46, 46]]).names, Proper e := p.place_names (by unfold Elem; decide) hr
    have h2 := key hp (below_proper hr hn) h1
    have h3 : RelPlace.place p [[46, 46]] = if p.names = [] then { ups := p.ups + 1 } else { p with names := p.names.dropLast } := rfl
    rw [h3] at h2
    split at h2
    · rename_i h0
      simp only [RelPlace.elems, h0, List.append_nil, List.nil_append, List.replicate_succ'] at h2
      have := List.append_cancel_left h2
      exact (hn [46, 46] (by rw [← this]; simp)).2.2.2 rfl
    · rename_i h0
      have := congrArg List.length h2
      simp only [RelPlace.elems, List.length_append, List.length_dropLast] at this
      have := List.length_pos_iff.2 h0
      omega

/-- a list of elements that does not stay climbs out at some ".." -/
theorem climbs {names l : List Bytes} (h : stays names.length l = false) :
    ∃ a b, l = a ++ [46, 46] :: b ∧ stays names.length a = true ∧ place names a = [] := by
  induction l generalizing names with
  | nil => cases h
  | cons e l ih =>
    unfold stays at h
    by_cases h1 : e = [46]
    · rw [if_pos h1] at h
      obtain ⟨a, b, rfl, ha, hp⟩ := ih h
      refine ⟨e :: a, b, rfl, ?_, ?_⟩
      · unfold stays; rw [if_pos h1]; exact ha
      · rw [place_cons]; unfold follow; rw [if_pos h1]; exact hp
    · rw [if_neg h1] at h
      by_cases h2 : e = [46, 46]
      · rw [if_pos h2] at h
        by_cases h0 : names = []
        · exact ⟨[], l, by rw [h2]; rfl, rfl, h0⟩
        · have hl : names.length ≠ 0 := fun h => h0 (List.length_eq_zero_iff.1 h)
          simp only [bne_iff_ne.2 hl, Bool.true_and] at h
          obtain ⟨a, b, rfl, ha, hp⟩ := ih (names := names.dropLast) (by rw [List.length_dropLast]; exact h)
          refine ⟨e :: a, b, rfl, ?_, ?_⟩
          · unfold stays
            rw [if_neg h1, if_pos h2, bne_iff_ne.2 hl, Bool.true_and, ← List.length_dropLast]
            exact ha
          · rw [place_cons]; unfold follow; rw [if_neg h1, if_pos h2]; exact hp
      · rw [if_neg h2] at h
        obtain ⟨a, b, rfl, ha, hp⟩ := ih (names := names ++ [e]) (by simpa using h)
        refine ⟨e :: a, b, rfl, ?_, ?_⟩
        · unfold stays; rw [if_neg h1, if_neg h2]; simpa using ha
        · rw [place_cons]; unfold follow; rw [if_neg h1, if_neg h2]; exact hp

theorem allElems_single {l : List GoString} (h : ∀ n ∈ l, Elem n) : allElems l = l := by
  induction l with
  | nil => rfl
  | cons n l ih =>
    show elems n ++ allElems l = n :: l
    rw [ih fun x hx => h x (List.mem_cons_of_mem _ hx)]
    have := elems_slashed (l := [n]) (by simpa using h n (by simp))
    rw [show slashed [n] = n by simp [slashed]] at this
    rw [this]
    rfl

/-- C39: exactly which walks stay below a root other than "/", for names as the protocol has them (not empty,
without slashes; "." and ".." included): those that at no point have more ".." behind them than lead back to the
root.  Every other walk leads out, at the first ".." too many. -/
theorem C39_walk_exact {s : State ω H} (hs : Inside s) (hroot : rootPlace s ≠ .abs []) {p : TwalkPkt} (hp : ∀ n ∈ p.Paths, n ≠ [] ∧ 47 ∉ n)
    {f : File H} (hf : s.files p.SFID = some f) :
    (∀ k, Below (rootPlace s) (reach f.fullName p.Paths k)) ↔
      ∀ names, (∀ n ∈ names, Proper n) → f.fullName = (rootPlace s).under names → stays names.length p.Paths = true := by
  have hr := rootPlace_proper s
  have hall : allElems p.Paths = p.Paths := allElems_single hp
  constructor
  · intro h names hn he
    cases hst : stays names.length p.Paths with
    | true => rfl
    | false =>
      exfalso
      obtain ⟨a, b, hab, ha, hpl⟩ := climbs hst
      have haE : ∀ n ∈ a, Elem n := fun n hx => hp n (by rw [hab]; simp [hx])
      have h1 := h (a.length + 1)
      have hreach : reach f.fullName p.Paths (a.length + 1) = pathJoin ((rootPlace s).under []) [46, 46] := by
        have := reach_stays hr hn (paths := a) (by rw [allElems_single haE]; exact ha) a.length
        rw [List.take_length, allElems_single haE, hpl] at this
        rw [← this, he, hab]
        unfold reach
        rw [List.take_length, List.take_append, show a.length + 1 - a.length = 1 by omega, List.take_of_length_le (by omega)]
        simp
      rw [hreach] at h1
      exact above_root hr hroot h1
  · intro h k
    obtain ⟨names, hn, he⟩ := hs _ _ hf
    exact ⟨_, place_proper hn (allElems_elem _), by
      rw [he]; exact reach_stays hr hn (by rw [hall]; exact h names hn he) k⟩

/-- C39: the same for create: only ".." in the root leads out -/
theorem C39_create_exact {s : State ω H} (hs : Inside s) (hroot : rootPlace s ≠ .abs []) {p : TcreatePkt} (hp : p.Name ≠ [] ∧ 47 ∉ p.Name)
    {f : File H} (hf : s.files p.OFID = some f) :
    Below (rootPlace s) (pathJoin f.fullName p.Name) ↔ ¬ (p.Name = [46, 46] ∧ f.fullName = (rootPlace s).under []) := by
  have hr := rootPlace_proper s
  have hall : elems p.Name = [p.Name] := by
    have := allElems_single (l := [p.Name]) (fun n h => by rw [List.mem_singleton.1 h]; exact hp)
    simpa [allElems] using this
  constructor
  · rintro h ⟨h1, h2⟩
    rw [h1, h2] at h
    exact above_root hr hroot h
  · intro h
    obtain ⟨names, hn, he⟩ := hs _ _ hf
    have hst : stays names.length (elems p.Name) = true := ?_
    · exact ⟨_, place_proper hn (elems_elem _), by rw [he]; exact under_stays hr hn hst⟩
    rw [hall]
    unfold stays
    by_cases h1 : p.Name = [46]
    · rw [if_pos h1]; rfl
    · rw [if_neg h1]
      by_cases h2 : p.Name = [46, 46]
      · rw [if_pos h2]
        have : names ≠ [] := by rintro rfl; exact h ⟨h2, he⟩
        have hl : names.length ≠ 0 := fun h => this (List.length_eq_zero_iff.1 h)
        rw [bne_iff_ne.2 hl]
        rfl
      · rw [if_neg h2]; rfl

/-- C40: a new name for the root of an export other than "/" leads out of it, unless it is the name the root has -/
theorem C40_root_exact {root : GoString} {es : List Bytes} (hes : ∀ e ∈ es, Proper e) (hne : es ≠ []) (hroot : rootOf root = .abs es)
    {name : GoString} (hn : Proper name) :
    Below (rootOf root) (renameTo root (absPath es) name) ↔ es.getLast? = some name := by
  have habs : isAbs name = false := by
    unfold isAbs slash
    cases name with
    | nil => exact absurd rfl hn.1
    | cons a t =>
      simp only [List.head?_cons, Option.some.injEq, decide_eq_false_iff_not]
      rintro rfl
      exact hn.2.1 (by simp)
  have hd : ∀ e ∈ es.dropLast, Proper e := fun e h => hes e (List.dropLast_subset _ h)
  have hpath : renameTo root (absPath es) name = absPath (es.dropLast ++ [name]) := by
    have h1 : ∀ n ∈ [name], Proper n := by simpa using hn
    unfold renameTo
    rw [habs, if_neg (by simp), pathDir_place hes, pathJoin_slash]
    have e1 : place [] (elems name) = [name] := by
      have := allElems_single (l := [name]) (fun n h => by rw [List.mem_singleton.1 h]; exact Proper.elem hn)
      rw [show elems name = [name] by simpa [allElems] using this]
      exact place_of_proper (es := []) h1
    rw [e1, pathJoin_place hd, elems_absPath' fun e h => Proper.elem (h1 e h), place_of_proper h1]
  rw [hpath, hroot]
  have hall : ∀ e ∈ es.dropLast ++ [name], Proper e := by
    intro e h
    rcases List.mem_append.1 h with h | h
    · exact hd e h
    · rw [List.mem_singleton.1 h]; exact hn
  constructor
  · rintro ⟨names, hns, h⟩
    have h : absPath (es.dropLast ++ [name]) = absPath (es ++ names) := h
    have h2 := congrArg elems h
    rw [elems_absPath' fun e h => Proper.elem (hall e h), elems_absPath' fun e h => Proper.elem (below_proper hes hns e h)] at h2
    have hlen := congrArg List.length h2
    simp only [List.length_append, List.length_dropLast, List.length_singleton] at hlen
    have := List.length_pos_iff.2 hne
    have hnil : names = [] := List.length_eq_zero_iff.1 (by omega)
    rw [hnil, List.append_nil] at h2
    rw [← h2]
    simp
  · intro h
    obtain ⟨l, rfl⟩ := List.getLast?_eq_some_iff.1 h
    exact ⟨[], nofun, by simp [Root.under]⟩

/-! ### Examples -/

open Mem

/-- C39: down, up again and down -/
def upDown : TMsg := .walk { SFID := 0, NewFID := 1, Paths := [[100], [46, 46], [102]] }

/-- C39: a history with a walk that goes down, up again and down -/
example : ∃ h s', Hist Mem.host [103] Modest AnyWorld demo h s' ∧ h.length = 2 ∧
    (s'.files 1).map (·.fullName) = some [47, 120, 47, 102] ∧ ¬ Tame (runAll [attach0] demo).2 upDown := by
  have hh : Hist Mem.host [103] Modest AnyWorld demo _ (runAll [attach0, upDown] demo).2 :=
    .ok (m := attach0) trivial rfl (.ok (m := upDown) (by
      intro f names _ _ _
      have : allElems [[100], [46, 46], [102]] = [[100], [46, 46], [102]] := by decide +kernel
      show stays names.length (allElems [[100], [46, 46], [102]]) = true
      rw [this]
      simp [stays]) rfl (.nil _))
  refine ⟨_, _, hh, rfl, rfl, fun h => ?_⟩
  exact h [46, 46] (by simp) (by decide +kernel)

/-- C39: the walk of `C39_counterexample` is one that leads out -/
example : stays 0 [[46, 46], [101, 116, 99]] = false ∧ stays 1 [[46, 46], [101, 116, 99]] = true := ⟨rfl, rfl⟩

/-- C40: "p" is not the name of "/x" -/
example : rootOf [47, 120] = .abs [[120]] ∧ ([[120]] : List Bytes).getLast? ≠ some [112] := ⟨root_x, by decide⟩

end Ninep.Ufs
