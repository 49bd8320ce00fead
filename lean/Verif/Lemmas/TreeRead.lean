import Verif.Lemmas.TreeText
/-!
# Reading the text of a tree
-/

namespace Verif.Idl.Syn
open Text Gen
open Dep (Event Node Kind place declared opened EnumeratorConst Uses Before declOf Generates Named)

section
variable {r : Reading} {root : Mod Decl}

theorem deps_uniq (hS : Sound root) : (deps root).uniq := by
  refine uniq_of _ fun q m' hq => ?_
  rw [deps_at] at hq
  cases hm : root.at q with
  | none => rw [hm] at hq; cases hq
  | some m =>
    rw [hm, Option.map_some, Option.some.injEq] at hq
    subst hq
    obtain ⟨h1, h2⟩ := hS.tables q m hm
    refine ⟨fun k => ?_, ?_⟩
    · rw [content_mapAt, get_mapAll, List.map_map]
      exact inc_nodup (h1 k)
    · rw [inner_mapAt, keys_mapInner]
      exact inc_nodup h2

theorem deps_some (root : Mod Decl) (q : Loc) : ((deps root).at q).isSome = (root.at q).isSome := by
  rw [deps_at, Option.isSome_map]

theorem declOf_some (root : Mod Decl) (n : Node) : (declOf (deps root) n).isSome = (element root n).isSome := by
  rw [deps_declOf, Option.isSome_map]

theorem deps_clean (hE : ExpressibleTree r root) : Dep.Clean (deps root) where
  mods := fun p hp x hx => by
    rw [deps_some] at hp
    exact tree_ids hE hp x hx
  names := fun n hn => by
    rw [declOf_some] at hn
    exact tree_name hE hn
  kinds := fun n m hn hm hl hx => by
    rw [declOf_some] at hn hm
    rw [hE.distinct.kinds n m hn hm hl hx]
  types := fun n d hd hk => by
    rw [deps_declOf] at hd
    cases h : element root n with
    | none => rw [h] at hd; cases hd
    | some e =>
      rw [h, Option.map_some, Option.some.injEq] at hd
      subst hd
      obtain ⟨h1, h2⟩ := hE.sound.entries n e h
      have hf : ¬ EnumeratorConst (deps root) n := fun hh => hk hh.1
      have hx := hE.decls n e h hf
      have key : ∀ y : String, y.toList = n.name → (scopedStr n.loc y).toList = scopedName n.loc n.name := by
        intro y hy; rw [scopedStr, String.toList_ofList, hy]
      cases e with
      | struct y q ms => exact key y h2
      | union y u =>
        obtain ⟨k1, _⟩ := hx
        show u.name.toList = _
        rw [k1]; exact key y h2
      | enum y vs => exact key y h2
      | «alias» y t => exact key y h2
      | const y i => exact absurd h1.symm hk

/-- The events of the text of a tree. -/
theorem text_script (hE : ExpressibleTree r root) {sk : List Event} (h : Generates (deps root) sk) : Script root sk := by
  obtain ⟨h1, h2, h3, h4, h5⟩ := Dep.C45_exactly_once_partial (deps_uniq hE.sound) (deps_clean hE).named h
  refine ⟨h1, fun n => ?_, h3, fun p => ?_, h5⟩
  · rw [h2, declOf_some]
  · rw [h4, deps_some]

theorem deps_full (root : Mod Decl) : (deps root).full = root.full := full_mapAt _ _ _

/-- The text of a tree comes in pieces, and those have the skeleton that the dependency tree gives. -/
theorem text_pieces (hE : ExpressibleTree r root) {text : Bytes} (h : GeneratesText root text) :
    ∃ ps, text = (ps.map (pieceText root)).flatten ∧ (∀ x ∈ ps, Fits x) ∧ Generates (deps root) (skeleton ps) := by
  obtain ⟨hf, t, fuel, s, h1, h2, rfl⟩ := h
  have hu := deps_uniq hE.sound
  have hf' : (deps root).full = true := by rw [deps_full]; exact hf
  refine ⟨s.out, rfl, ?_, hf', t, fuel, s.bare, h1, ?_, rfl⟩
  · exact genText_fit (Dep.graph_wf hu hf' (deps_clean hE).named (Dep.solve_ok hu h1)) fuel 0 [] {} s (by simp) (fun _ => rfl)
      (fun h => absurd rfl h) h2 (by intro x hx; cases hx)
  · have := genText_bare (Dep.graph (deps root) t) fuel 0 [] {}
    rw [h2, Option.map_some] at this
    exact this.symm

/-- What is written is read back, if everything stands before it is used. -/
theorem read_back (c : Ctx) (hE : ExpressibleTree ⟨c.char, c.wide16⟩ root) {text : Bytes} (ht : GeneratesText root text)
    (hord : ∀ sk, Generates (deps root) sk → ∀ n m, Uses (deps root) n m → Before sk m n) :
    ∃ T, Reads c .empty text (T, none) ∧ SameTree (items root) T := by
  obtain ⟨ps, rfl, hfit, hgen⟩ := text_pieces hE ht
  have hscr := text_script hE hgen
  obtain ⟨h1, h2⟩ := hscr.run hE (hord _ hgen) (skeleton ps) [] .empty rfl (part_empty root)
  refine ⟨_, parse_pieces c hfit hscr.placed (fun n hn => ((hscr.decls n).mp (Dep.mem_declared.mpr hn)).1) (hscr.noempty hE)
    (hscr.nonempty hE) h1, hscr.same hE h2⟩

end

end Verif.Idl.Syn
