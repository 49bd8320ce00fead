import Verif.Lemmas.TextGen
import Verif.Lemmas.IdlDocs
import Verif.Spec.Deps
/-!
# The parts of the text of a module
-/

namespace Verif.Idl.Syn
open Text Gen
open Dep (Event Node place)

/-! ## What the skeleton does to a tree -/

/-- The tree after an event of the skeleton. -/
def stepEv (el : Node → Option Decl) (T : Mod Item) : Event → Mod Item
  | .open p => openModule p.tail (p.headD []) T
  | .decl n => match el n with
    | some d => enter n.loc d T
    | none => T
  | .close _ => T

/-- The event can happen. -/
def EvOk (r : Reading) (el : Node → Option Decl) (T : Mod Item) : Event → Prop
  | .open p => Usable (String.ofList (p.headD [])) ∧ ((T.at p).isSome ∨ Unseen T p.tail (p.headD []))
  | .decl n => ∃ d, el n = some d ∧ Declarable r T n.loc d
  | .close _ => True

/-- All events can happen one after the other. -/
def AllOk (r : Reading) (el : Node → Option Decl) : Mod Item → List Event → Prop
  | _, [] => True
  | T, e :: l => EvOk r el T e ∧ AllOk r el (stepEv el T e) l

/-- No module is closed as soon as it is opened. -/
def NoEmpty : List Event → Prop
  | [] => True
  | .open _ :: .close _ :: _ => False
  | _ :: l => NoEmpty l

theorem NoEmpty.tail {e : Event} {l : List Event} (h : NoEmpty (e :: l)) : NoEmpty l := by
  cases e with
  | «open» p =>
    cases l with
    | nil => trivial
    | cons e' l => cases e' <;> first | exact h | exact absurd h id
  | decl n => exact h
  | close p => exact h

/-! ## The rest of a text, from inside a module -/

/-- The parts that are left in a module, and the white space before its end. -/
structure Frame where
  ds : List Doc
  e : Bytes

/-- The text up to the end of a module and of those around it. -/
def restText : Loc → List Frame → Bytes
  | [], [f] => docsText [] f.ds ++ f.e
  | x :: r, f :: fs => docsText (x :: r) f.ds ++ (f.e ++ (indent r.length ++ (bytes "};" ++ (bytes "\n" ++ restText r fs))))
  | _, _ => []

/-- The tree after the rest. -/
def restEnter : Loc → List Frame → Mod Item → Mod Item
  | [], [f], T => enterDocs [] T f.ds
  | x :: r, f :: fs, T => restEnter r fs (enterDocs (x :: r) T f.ds)
  | _, _, T => T

/-- The rest can be entered. -/
def RestOk (r : Reading) : Loc → List Frame → Mod Item → Prop
  | [], [f], T => DocsDeclarable r [] T f.ds ∧ Layout f.e
  | x :: q, f :: fs, T => DocsDeclarable r (x :: q) T f.ds ∧ Layout f.e ∧ RestOk r q fs (enterDocs (x :: q) T f.ds)
  | _, _, _ => False

/-- White space before a part. -/
def addGap (g : Bytes) : Doc → Doc
  | .decl h t d => .decl (g ++ h) t d
  | .module h t n ds e => .module (g ++ h) t n ds e

theorem addGap_text (g : Bytes) (p : Loc) (d : Doc) : docText p (addGap g d) = g ++ docText p d := by
  cases d <;> simp only [addGap, docText, List.append_assoc]

theorem addGap_enter (g : Bytes) (p : Loc) (T : Mod Item) (d : Doc) : enterDoc p T (addGap g d) = enterDoc p T d := by
  cases d <;> simp only [addGap, enterDoc]

theorem addGap_ok {g : Bytes} (hg : Blanks g) {r : Reading} {p : Loc} {T : Mod Item} {d : Doc} (h : DocDeclarable r p T d) :
    DocDeclarable r p T (addGap g d) := by
  cases d with
  | decl _ _ _ => rw [DocDeclarable] at h; rw [addGap, DocDeclarable]; exact ⟨blanks_append hg h.1, h.2⟩
  | module _ _ _ _ _ => rw [DocDeclarable] at h; rw [addGap, DocDeclarable]; exact ⟨blanks_append hg h.1, h.2⟩

/-- White space before the rest. -/
def Frame.gap (f : Frame) : Frame :=
  match f.ds with
  | [] => ⟨[], 10 :: f.e⟩
  | d :: ds => ⟨addGap [10] d :: ds, f.e⟩

theorem Frame.gap_text (f : Frame) (p : Loc) : docsText p f.gap.ds ++ f.gap.e = 10 :: (docsText p f.ds ++ f.e) := by
  obtain ⟨ds, e⟩ := f
  cases ds with
  | nil => simp [gap, docsText]
  | cons d ds => simp [gap, docsText, addGap_text]

theorem Frame.gap_enter (f : Frame) (p : Loc) (T : Mod Item) : enterDocs p T f.gap.ds = enterDocs p T f.ds := by
  obtain ⟨ds, e⟩ := f
  cases ds with
  | nil => rfl
  | cons d ds => simp [gap, enterDocs, addGap_enter]

theorem Frame.gap_ok {r : Reading} {f : Frame} {p : Loc} {T : Mod Item} (h : DocsDeclarable r p T f.ds) (he : Layout f.e) :
    DocsDeclarable r p T f.gap.ds ∧ Layout f.gap.e := by
  have h10 : Blanks [10] := by intro c hc; simp at hc; simp [hc]
  obtain ⟨ds, e⟩ := f
  cases ds with
  | nil => exact ⟨by simp [gap, DocsDeclarable], blanks_append h10 he⟩
  | cons d ds =>
    rw [DocsDeclarable] at h
    refine ⟨?_, he⟩
    rw [gap, DocsDeclarable, addGap_enter]
    exact ⟨addGap_ok h10 h.1, h.2⟩

theorem Frame.gap_nil {f : Frame} (h : f.gap.ds = []) : f.ds = [] := by
  obtain ⟨ds, e⟩ := f
  cases ds with
  | nil => rfl
  | cons d ds => simp [gap] at h

/-- What the parts are of: a text with its skeleton. -/
structure Rest (r : Reading) (el : Node → Option Decl) (c : Loc) (text : Bytes) (sk : List Event) (f : Frame) (fs : List Frame) : Prop where
  len : fs.length = c.length
  text : text = restText c (f :: fs)
  ok : ∀ T, AllOk r el T sk → RestOk r c (f :: fs) T ∧ sk.foldl (stepEv el) T = restEnter c (f :: fs) T
  first : f.ds = [] → sk = [] ∨ ∃ p l, sk = .close p :: l

theorem frames (r : Reading) (root : Mod Decl) : ∀ (ps : List Piece) (c : Loc), (∀ x ∈ ps, Fits x) → place c (skeleton ps) = some [] →
    (∀ n, Event.decl n ∈ skeleton ps → (element root n).isSome) → NoEmpty (skeleton ps) →
    ∃ f fs, Rest r (element root) c ((ps.map (pieceText root)).flatten) (skeleton ps) f fs := by
  intro ps
  induction ps with
  | nil =>
    intro c _ hp _ _
    rw [show skeleton [] = [] from rfl, place, Option.some.injEq] at hp
    subst hp
    exact ⟨⟨[], []⟩, [], rfl, rfl, fun T _ => ⟨⟨by simp [DocsDeclarable], blanks_nil⟩, rfl⟩, fun _ => .inl rfl⟩
  | cons x ps ih =>
    intro c hf hp hel hne
    have hf' : ∀ y ∈ ps, Fits y := fun y hy => hf y (List.mem_cons_of_mem _ hy)
    have hx := hf x (List.mem_cons_self ..)
    rw [List.map_cons, List.flatten_cons]
    cases x with
    | gap =>
      have hs : skeleton (.gap :: ps) = skeleton ps := rfl
      rw [hs] at hp hel hne ⊢
      obtain ⟨f, fs, h0, h1, h2, h3⟩ := ih c hf' hp hel hne
      refine ⟨f.gap, fs, h0, ?_, fun T hT => ?_, fun h => h3 (Frame.gap_nil h)⟩
      · rw [h1]
        show 10 :: restText c (f :: fs) = restText c (f.gap :: fs)
        cases c with
        | nil =>
          obtain rfl := List.length_eq_zero_iff.mp h0
          rw [restText, restText, Frame.gap_text]
        | cons y q => rw [restText, restText, ← List.append_assoc (docsText _ f.gap.ds), Frame.gap_text]; simp
      · obtain ⟨k1, k2⟩ := h2 T hT
        cases c with
        | nil =>
          obtain rfl := List.length_eq_zero_iff.mp h0
          rw [RestOk] at k1 ⊢; rw [k2, restEnter, restEnter, Frame.gap_enter]; exact ⟨Frame.gap_ok k1.1 k1.2, rfl⟩
        | cons y q =>
          rw [RestOk] at k1 ⊢
          rw [k2, restEnter, restEnter, Frame.gap_enter]
          obtain ⟨a, b⟩ := Frame.gap_ok k1.1 k1.2.1
          exact ⟨⟨a, b, k1.2.2⟩, rfl⟩
    | decl t n =>
      have hs : skeleton (.decl t n :: ps) = .decl n :: skeleton ps := rfl
      rw [hs] at hp hel hne ⊢
      rw [place] at hp
      split at hp
      · rename_i hl
        subst hl
        obtain ⟨f, fs, h0, h1, h2, h3⟩ := ih n.loc hf' hp (fun m hm => hel m (List.mem_cons_of_mem _ hm)) hne.tail
        obtain ⟨d, hd⟩ := Option.isSome_iff_exists.mp (hel n (List.mem_cons_self ..))
        refine ⟨⟨.decl [] t d :: f.ds, f.e⟩, fs, h0, ?_, fun T hT => ?_, fun h => by cases h⟩
        · rw [h1, pieceText, hd]
          simp only
          generalize n.loc = c at *
          cases c with
          | nil =>
            obtain rfl := List.length_eq_zero_iff.mp h0
            simp only [restText, docsText, docText, List.nil_append, List.append_assoc]
          | cons y q => simp only [restText, docsText, docText, List.nil_append, List.append_assoc]
        · rw [AllOk, EvOk] at hT
          obtain ⟨⟨d', hd', hdec⟩, hT⟩ := hT
          rw [hd, Option.some.injEq] at hd'
          subst hd'
          have hstep : stepEv (element root) T (.decl n) = enter n.loc d T := by rw [stepEv, hd]
          rw [hstep] at hT
          obtain ⟨k1, k2⟩ := h2 _ hT
          rw [List.foldl_cons, hstep, k2]
          generalize n.loc = c at *
          cases c with
          | nil =>
            obtain rfl := List.length_eq_zero_iff.mp h0
            simp only [RestOk, restEnter, DocsDeclarable, DocDeclarable, enterDocs, enterDoc] at k1 ⊢
            exact ⟨⟨⟨⟨blanks_nil, hdec⟩, k1.1⟩, k1.2⟩, trivial⟩
          | cons y q =>
            simp only [RestOk, restEnter, DocsDeclarable, DocDeclarable, enterDocs, enterDoc] at k1 ⊢
            exact ⟨⟨⟨⟨blanks_nil, hdec⟩, k1.1⟩, k1.2⟩, trivial⟩
      · cases hp
    | «open» t p =>
      have hs : skeleton (.open t p :: ps) = .open p :: skeleton ps := rfl
      rw [hs] at hp hel hne ⊢
      rw [place] at hp
      split at hp
      · rename_i hl
        obtain ⟨hp0, rfl⟩ := hl
        obtain ⟨x, q, rfl⟩ := List.exists_cons_of_ne_nil hp0
        obtain ⟨f, fs, h0, h1, h2, h3⟩ := ih (x :: q) hf' hp (fun m hm => hel m (List.mem_cons_of_mem _ hm)) hne.tail
        obtain ⟨f1, fs, rfl⟩ := List.exists_cons_of_length_pos (l := fs) (by rw [h0]; simp)
        have hds : f.ds ≠ [] := by
          intro h
          rcases h3 h with e | ⟨p, l, e⟩
          · rw [e, place] at hp; cases hp
          · rw [e] at hne; exact hne
        have h0 : fs.length = q.length := by simpa using h0
        refine ⟨⟨.module [] t (String.ofList x) f.ds f.e :: f1.ds, f1.e⟩, fs, h0, ?_, fun T hT => ?_, fun h => by cases h⟩
        · have ht : t = q.length := by simpa [Fits] using hx
          subst ht
          rw [h1, pieceText, List.headD_cons, List.tail_cons, restText]
          cases q with
          | nil =>
            obtain rfl := List.length_eq_zero_iff.mp h0
            simp only [restText, docsText, docText, List.nil_append, List.append_assoc, String.toList_ofList]
          | cons y q => simp only [restText, docsText, docText, List.nil_append, List.append_assoc, String.toList_ofList]
        · rw [AllOk, EvOk] at hT
          obtain ⟨⟨hu, ho⟩, hT⟩ := hT
          obtain ⟨k1, k2⟩ := h2 _ hT
          rw [List.foldl_cons, k2, List.tail_cons]
          rw [stepEv, List.tail_cons, List.headD_cons] at k1 ⊢
          rw [List.headD_cons] at hu ho
          rw [List.tail_cons] at ho
          rw [RestOk] at k1
          rw [restEnter]
          cases q with
          | nil =>
            obtain rfl := List.length_eq_zero_iff.mp h0
            simp only [RestOk, restEnter, DocsDeclarable, DocDeclarable, enterDocs, enterDoc, String.toList_ofList] at k1 ⊢
            exact ⟨⟨⟨⟨blanks_nil, k1.2.1, hu, hds, ho, k1.1⟩, k1.2.2.1⟩, k1.2.2.2⟩, trivial⟩
          | cons y q =>
            simp only [RestOk, restEnter, DocsDeclarable, DocDeclarable, enterDocs, enterDoc, String.toList_ofList] at k1 ⊢
            exact ⟨⟨⟨⟨blanks_nil, k1.2.1, hu, hds, ho, k1.1⟩, k1.2.2.1⟩, k1.2.2.2⟩, trivial⟩
      · cases hp
    | close t p =>
      have hs : skeleton (.close t p :: ps) = .close p :: skeleton ps := rfl
      rw [hs] at hp hel hne ⊢
      rw [place] at hp
      split at hp
      · rename_i hl
        obtain ⟨hp0, rfl⟩ := hl
        obtain ⟨x, q, rfl⟩ := List.exists_cons_of_ne_nil hp0
        obtain ⟨f, fs, h0, h1, h2, h3⟩ := ih q hf' hp (fun m hm => hel m (List.mem_cons_of_mem _ hm)) hne.tail
        refine ⟨⟨[], []⟩, f :: fs, by simp [h0], ?_, fun T hT => ?_, fun _ => .inr ⟨_, _, rfl⟩⟩
        · have ht : t = q.length := by simpa [Fits] using hx
          subst ht
          rw [h1, pieceText, restText]
          simp only [docsText, List.nil_append, List.append_assoc]
        · rw [AllOk] at hT
          obtain ⟨k1, k2⟩ := h2 T hT.2
          rw [List.foldl_cons, RestOk, restEnter]
          simp only [DocsDeclarable, enterDocs]
          exact ⟨⟨trivial, blanks_nil, k1⟩, k2⟩
      · cases hp

/-- Reading the text of pieces. -/
theorem parse_pieces (c : Ctx) {root : Mod Decl} {ps : List Piece} (hf : ∀ x ∈ ps, Fits x) (hp : place [] (skeleton ps) = some [])
    (hel : ∀ n, Event.decl n ∈ skeleton ps → (element root n).isSome) (hne : NoEmpty (skeleton ps)) (h0 : skeleton ps ≠ [])
    (hok : AllOk ⟨c.char, c.wide16⟩ (element root) .empty (skeleton ps)) :
    Reads c .empty ((ps.map (pieceText root)).flatten) ((skeleton ps).foldl (stepEv (element root)) .empty, none) := by
  obtain ⟨f, fs, k0, k1, k2, k3⟩ := frames ⟨c.char, c.wide16⟩ root ps [] hf hp hel hne
  obtain rfl := List.length_eq_zero_iff.mp k0
  obtain ⟨k4, k5⟩ := k2 _ hok
  rw [RestOk] at k4
  rw [k5, k1, restText, restEnter]
  refine parse_docs c proper_empty (fun h => ?_) k4.1 k4.2
  rcases k3 h with e | ⟨p, l, e⟩
  · exact h0 e
  · rw [e, place] at hp
    split at hp
    · rename_i hh; exact hh.1 hh.2
    · cases hp

end Verif.Idl.Syn
