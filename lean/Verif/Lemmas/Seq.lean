import Verif.Model.Seq
/-! Refinement of sequences to lists: invariant and one-step lemmas. -/

namespace Verif

variable {α : Type}

namespace SeqInst

/-- Invariant of a sequence instance. -/
def Inv (block : Nat) (s : SeqInst α) : Prop :=
  match s.buf with
  | none => s.cap = 0 ∧ s.size = 0
  | some l => l.length = s.cap ∧ s.size ≤ s.cap ∧ 0 < s.cap ∧ s.cap < 2 ^ 32 ∧ s.cap * block < 2 ^ 32

/-- The list a sequence instance stands for. -/
def abs (s : SeqInst α) : List α := (s.buf.getD []).take s.size

theorem u32_of_lt {n : Nat} (h : n < 2 ^ 32) : u32 n = n := Nat.mod_eq_of_lt h

theorem initMem_cond {block n : Nat} :
    (∀ idx, idx < n → (idx * block) % 2 ^ 32 + block ≤ (n * block) % 2 ^ 32) ↔
      n * block < 2 ^ 32 := by
  constructor
  · intro h
    rcases Nat.lt_or_ge (n * block) (2 ^ 32) with hlt | hge
    · exact hlt
    exfalso
    have hb : 0 < block := by
      rcases Nat.eq_zero_or_pos block with hb | hb
      · subst hb; simp at hge
      · exact hb
    -- the last slot that starts below 2^32
    have h1 : (2 ^ 32 - 1) / block * block ≤ 2 ^ 32 - 1 := Nat.div_mul_le_self _ _
    have h2 : 2 ^ 32 - 1 < (2 ^ 32 - 1) / block * block + block := by
      have := Nat.lt_div_mul_add hb (a := 2 ^ 32 - 1); omega
    have hidx : (2 ^ 32 - 1) / block < n := by
      apply Nat.lt_of_mul_lt_mul_right (a := block); omega
    have := h _ hidx
    rw [Nat.mod_eq_of_lt (by omega)] at this
    have h3 : (n * block) % 2 ^ 32 < 2 ^ 32 := Nat.mod_lt _ (by decide)
    omega
  · intro h idx hidx
    have h1 : (idx + 1) * block ≤ n * block := Nat.mul_le_mul_right _ hidx
    rw [Nat.add_mul] at h1
    rw [Nat.mod_eq_of_lt (by omega), Nat.mod_eq_of_lt h]; omega

theorem initMem_eq (block : Nat) (d : α) (n : Nat) :
    initMem block d n =
      if u32 n = 0 then some none
      else if u32 n * block < 2 ^ 32 then some (some (List.replicate (u32 n) d)) else none := by
  unfold initMem
  by_cases h0 : u32 n = 0
  · simp [h0]
  · simp only [h0, if_false]
    have hc := initMem_cond (block := block) (n := u32 n)
    by_cases h : u32 n * block < 2 ^ 32
    · rw [if_pos (hc.mpr h), if_pos h]
    · rw [if_neg (fun hh => h (hc.mp hh)), if_neg h]

theorem inv_size_le {block : Nat} {s : SeqInst α} (h : s.Inv block) : s.size ≤ s.cap := by
  unfold Inv at h; split at h <;> omega

theorem abs_length {block : Nat} {s : SeqInst α} (h : s.Inv block) : s.abs.length = s.size := by
  unfold Inv at h; unfold abs
  cases hb : s.buf with
  | none => rw [hb] at h; simp [h.2]
  | some l => rw [hb] at h; simp; omega

/-- What a successful `realloc` does. -/
theorem realloc_spec {block : Nat} {d : α} {s s' : SeqInst α} {desired bounds : Nat}
    (h : s.Inv block) (hr : realloc block d s desired bounds = some s') :
    s'.Inv block ∧ s'.abs = s.abs ∧ s'.size = s.size ∧
      s'.cap = u32 (if bounds = 0 then desired else min desired bounds) ∧
      s'.moved = s.moved + (if s.buf = none ∨ s'.buf = none then 0 else s.size) := by
  unfold realloc at hr
  simp only [initMem_eq] at hr
  generalize hn : (if bounds = 0 then desired else min desired bounds) = nc at hr ⊢
  have hlt : u32 nc < 2 ^ 32 := Nat.mod_lt _ (by decide)
  unfold Inv at h
  by_cases h0 : u32 nc = 0
  · simp only [h0, if_true] at hr
    cases hb : s.buf with
    | none =>
      rw [hb] at hr h; simp only [Option.some.injEq] at hr; subst hr
      simp [Inv, abs, hb, h.2, h0]
    | some l =>
      rw [hb] at hr h; simp only at hr
      split at hr
      · rename_i hs; simp only [Option.some.injEq] at hr; subst hr
        simp [Inv, abs, hs, h0]
      · cases hr
  · simp only [h0, if_false] at hr
    by_cases h1 : u32 nc * block < 2 ^ 32
    · simp only [h1, if_true] at hr
      cases hb : s.buf with
      | none =>
        rw [hb] at hr h; simp only [Option.some.injEq] at hr; subst hr
        simp only [Inv, abs, hb, h.2, List.length_replicate]
        simp; omega
      | some l =>
        rw [hb] at hr h; simp only at hr
        split at hr
        · rename_i hs; simp only [Option.some.injEq] at hr; subst hr
          simp only [List.length_replicate] at hs
          refine ⟨?_, ?_, rfl, rfl, by simp⟩
          · simp only [Inv, List.length_append, List.length_take, List.length_drop,
              List.length_replicate]
            omega
          · simp only [abs, hb, Option.getD_some]
            rw [List.take_append_of_le_length (by simp; omega), List.take_take]; simp
        · cases hr
    · simp [h1] at hr

/-- When `realloc` is defined. -/
theorem realloc_ok {block : Nat} {d : α} {s : SeqInst α} {desired bounds : Nat} (h : s.Inv block)
    (nc : Nat) (hn : (if bounds = 0 then desired else min desired bounds) = nc)
    (h1 : nc < 2 ^ 32) (h2 : nc * block < 2 ^ 32) (h3 : s.size ≤ nc) :
    ∃ s', realloc block d s desired bounds = some s' := by
  unfold realloc
  simp only [initMem_eq, hn, Nat.mod_eq_of_lt h1, if_pos h2]
  unfold Inv at h
  by_cases h0 : nc = 0
  · simp only [h0, if_true]
    cases hb : s.buf with
    | none => exact ⟨_, rfl⟩
    | some l => simp only; rw [if_pos (by omega)]; exact ⟨_, rfl⟩
  · simp only [h0, if_false]
    cases hb : s.buf with
    | none => exact ⟨_, rfl⟩
    | some l =>
      rw [hb] at h
      simp only [List.length_replicate]
      rw [if_pos (by omega)]; exact ⟨_, rfl⟩

theorem take_set_succ {l : List α} {n : Nat} {v : α} (h : n < l.length) :
    (l.set n v).take (n + 1) = l.take n ++ [v] := by
  rw [List.take_add_one, List.take_set_of_le (Nat.le_refl _)]
  simp [List.getElem?_set_self h]

/-- Writing at the end of the used part. -/
theorem put_spec {block : Nat} {s : SeqInst α} {l : List α} {v : α} (h : s.Inv block)
    (hb : s.buf = some l) (hlt : s.size < l.length) :
    ({ s with buf := some (l.set s.size v), size := u32 (s.size + 1) } : SeqInst α).Inv block ∧
    ({ s with buf := some (l.set s.size v), size := u32 (s.size + 1) } : SeqInst α).abs
      = s.abs ++ [v] := by
  unfold Inv at h
  rw [hb] at h
  have hs : u32 (s.size + 1) = s.size + 1 := Nat.mod_eq_of_lt (by omega)
  constructor
  · simp only [Inv, List.length_set, hs]; omega
  · simp only [abs, hs, hb, Option.getD_some]; exact take_set_succ hlt

theorem push_ext_spec {block : Nat} {d v : α} {s s' : SeqInst α} {bounds : Nat}
    (h : s.Inv block) (hp : push block d s (.ext v) bounds = some s') :
    s'.Inv block ∧ s'.abs = s.abs ++ [v] := by
  unfold push at hp
  simp only at hp
  split at hp
  · cases hp
  · rename_i s1 hs1
    have h1 : s1.Inv block ∧ s1.abs = s.abs ∧ s1.size = s.size := by
      split at hs1
      · have := realloc_spec h hs1; exact ⟨this.1, this.2.1, this.2.2.1⟩
      · simp only [Option.some.injEq] at hs1; subst hs1; exact ⟨h, rfl, rfl⟩
    split at hp
    · cases hp
    · rename_i l hl
      split at hp
      · rename_i hlt
        simp only [Option.some.injEq] at hp; subst hp
        have := put_spec (v := v) h1.1 hl hlt
        rw [h1.2.1] at this; exact this
      · cases hp

theorem push_own_spec {block : Nat} {d : α} {s s' : SeqInst α} {i bounds : Nat}
    (h : s.Inv block) (hi : i < s.size) (hp : push block d s (.own i) bounds = some s') :
    ∃ v, s.abs[i]? = some v ∧ s'.Inv block ∧ s'.abs = s.abs ++ [v] := by
  unfold push at hp
  simp only at hp
  by_cases hg : s.buf = none ∨ s.size = s.cap
  · simp only [hg, if_true] at hp
    split at hp
    · cases hp
    · split at hp
      · cases hp
      · split at hp <;> cases hp
  · simp only [hg, if_false] at hp
    cases hb : s.buf with
    | none => rw [hb] at hp; cases hp
    | some l =>
      rw [hb] at hp; simp only at hp
      split at hp
      · rename_i hlt
        cases hv : l[i]? with
        | none => rw [hv] at hp; cases hp
        | some v =>
          rw [hv] at hp; simp only [Option.some.injEq] at hp; subst hp
          have := put_spec (v := v) h hb hlt
          exact ⟨v, by simp [abs, hb, hi, hv], this⟩
      · cases hp

theorem resize_spec {block : Nat} {d : α} {s s' : SeqInst α} {n bounds : Nat}
    (h : s.Inv block) (hp : resize block d s n bounds = some s') :
    s'.Inv block ∧ s'.abs = s.abs ++ List.replicate (n - s.size) d := by
  unfold resize at hp
  split at hp
  · rename_i hge; simp only [Option.some.injEq] at hp; subst hp
    refine ⟨h, ?_⟩
    rw [Nat.sub_eq_zero_of_le hge]; simp
  · rename_i hlt
    split at hp
    · cases hp
    · rename_i s1 hs1
      obtain ⟨h1, h2, h3, h4, h5⟩ := realloc_spec h hs1
      split at hp
      · cases hp
      · rename_i l hl
        split at hp
        · rename_i hle
          simp only [Option.some.injEq] at hp; subst hp
          have h1' := h1
          unfold Inv at h1'; rw [hl] at h1'
          have hn : u32 n = n := Nat.mod_eq_of_lt (by omega)
          constructor
          · simp only [Inv, List.length_append, List.length_take, List.length_replicate,
              List.length_drop, hn]
            omega
          · simp only [abs, Option.getD_some, hn]
            rw [List.take_append_of_le_length (by simp; omega)]
            rw [List.take_of_length_le (by simp; omega)]
            have h6 : s1.abs = l.take s1.size := by simp [abs, hl]
            rw [h3] at h6 ⊢; rw [← h6, h2]; rfl
        · cases hp

theorem copyContent_spec {block : Nat} {d : α} {f : α → α} {s s' other : SeqInst α} {bounds : Nat}
    (h : s.Inv block) (ho : other.Inv block) (hcap : s.cap ≤ other.cap) (hb0 : s.buf ≠ none)
    (hbnd : bounds = s.size) (hsz : s.size ≤ other.size) (hz : s.size = 0 → other.size = 0)
    (hp : copyContent block d f s other bounds = some s') :
    s'.Inv block ∧ s'.abs = (other.abs.take s.size).map f := by
  have hs := inv_size_le h
  have hos := inv_size_le ho
  unfold copyContent at hp
  cases hb : s.buf with
  | none => exact absurd hb hb0
  | some l =>
  have h' := h
  unfold Inv at h'; rw [hb] at h'
  have hm : min s.cap other.cap = s.cap := by omega
  have hne : s.cap ≠ 0 := by omega
  simp only [hm, hne, if_false] at hp
  have hmin : (if bounds ≠ 0 then min (min s.cap other.size) bounds else min s.cap other.size)
      = s.size := by
    subst hbnd; split <;> omega
  rw [hmin] at hp
  rw [if_neg (by simp [hb]; omega)] at hp
  simp only [hb] at hp
  have ho' := ho
  unfold Inv at ho'
  cases hob : other.buf with
  | none =>
    rw [hob] at ho'
    omega
  | some o =>
    rw [hob] at hp ho'
    simp only at hp
    rw [if_pos (by omega)] at hp
    simp only [Option.some.injEq] at hp
    subst hp
    constructor
    · simp only [Inv, List.length_append, List.length_map, List.length_take, List.length_drop]
      omega
    · simp only [abs, Option.getD_some, hob]
      rw [List.take_append_of_le_length (by simp; omega)]
      rw [← List.map_take, List.take_take, List.take_take]
      simp [Nat.min_eq_left hsz]

theorem copyContent_ok {block : Nat} {d : α} {f : α → α} {s other : SeqInst α} {bounds : Nat}
    (h : s.Inv block) (ho : other.Inv block) (hcap : s.cap ≤ other.cap) (hb0 : s.buf ≠ none)
    (hbnd : bounds = s.size) (hsz : s.size ≤ other.size) (hz : s.size = 0 → other.size = 0) :
    ∃ s', copyContent block d f s other bounds = some s' := by
  have hs := inv_size_le h
  have hos := inv_size_le ho
  unfold copyContent
  cases hb : s.buf with
  | none => exact absurd hb hb0
  | some l =>
  have h' := h
  unfold Inv at h'; rw [hb] at h'
  have hm : min s.cap other.cap = s.cap := by omega
  have hne : s.cap ≠ 0 := by omega
  simp only [hm, hne, if_false]
  have hmin : (if bounds ≠ 0 then min (min s.cap other.size) bounds else min s.cap other.size)
      = s.size := by
    subst hbnd; split <;> omega
  rw [hmin]
  rw [if_neg (by simp; omega)]
  simp only [hb]
  have ho' := ho
  unfold Inv at ho'
  cases hob : other.buf with
  | none => rw [hob] at ho'; omega
  | some o =>
    rw [hob] at ho'
    simp only
    rw [if_pos (by omega)]
    exact ⟨_, rfl⟩

theorem cap_lt {block : Nat} {s : SeqInst α} (h : s.Inv block) : s.cap < 2 ^ 32 := by
  unfold Inv at h; split at h <;> omega

theorem copyFrom_spec {block : Nat} {d : α} {f : α → α} {s s' : SeqInst α} {bounds : Nat}
    (h : s.Inv block) (hp : copyFrom block d f s bounds = some s') :
    s'.Inv block ∧ s'.abs = ((if bounds = 0 then s.abs else s.abs.take bounds).map f) := by
  have hal := abs_length h
  have hle := inv_size_le h
  have hlt := cap_lt h
  unfold copyFrom at hp
  simp only [initMem_eq] at hp
  generalize hc : (if bounds = 0 then s.cap else min s.cap bounds) = c at hp
  generalize hz : (if bounds = 0 then s.size else min s.size bounds) = z at hp
  have hcl : c ≤ s.cap := by rw [← hc]; split <;> omega
  have hzl : z ≤ s.size := by rw [← hz]; split <;> omega
  have hzc : z ≤ c := by rw [← hc, ← hz]; split <;> omega
  have hu : u32 c = c := Nat.mod_eq_of_lt (by omega)
  rw [hu] at hp
  have habs : (if bounds = 0 then s.abs else s.abs.take bounds) = s.abs.take z := by
    rw [← hz]
    split
    · rw [← hal]; simp
    · rw [← hal, Nat.min_comm, List.take_eq_take_min]
  rw [habs]
  by_cases h0 : c = 0
  · simp only [h0, if_true, Option.some.injEq] at hp
    subst hp
    have : z = 0 := by omega
    subst this
    simp [Inv, abs]
  · simp only [h0, if_false] at hp
    by_cases h1 : c * block < 2 ^ 32
    · simp only [h1, if_true] at hp
      rw [if_neg (by simp)] at hp
      have hinv : ({ cap := c, buf := some (List.replicate c d), size := z } : SeqInst α).Inv block := by
        exact ⟨by simp, hzc, Nat.pos_of_ne_zero h0, Nat.lt_of_le_of_lt hcl hlt, h1⟩
      exact copyContent_spec hinv h hcl (by simp) rfl hzl
        (by
          intro hz0
          have hz0 : z = 0 := hz0
          rcases Nat.eq_zero_or_pos bounds with hb | hb
          · rw [if_pos hb] at hz; omega
          · rw [if_neg (by omega)] at hz hc; omega) hp
    · simp [h1] at hp

theorem copyFrom_ok {block : Nat} {d : α} {f : α → α} {s : SeqInst α} {bounds : Nat}
    (h : s.Inv block) : ∃ s', copyFrom block d f s bounds = some s' := by
  have hle := inv_size_le h
  have hlt := cap_lt h
  unfold copyFrom
  simp only [initMem_eq]
  generalize hc : (if bounds = 0 then s.cap else min s.cap bounds) = c
  generalize hz : (if bounds = 0 then s.size else min s.size bounds) = z
  have hcl : c ≤ s.cap := by rw [← hc]; split <;> omega
  have hzl : z ≤ s.size := by rw [← hz]; split <;> omega
  have hzc : z ≤ c := by rw [← hc, ← hz]; split <;> omega
  have hu : u32 c = c := Nat.mod_eq_of_lt (by omega)
  rw [hu]
  by_cases h0 : c = 0
  · simp [h0]
  · simp only [h0, if_false]
    have h1 : c * block < 2 ^ 32 := by
      have : c * block ≤ s.cap * block := Nat.mul_le_mul_right _ hcl
      unfold Inv at h; split at h
      · omega
      · omega
    simp only [h1, if_true]
    rw [if_neg (by simp)]
    have hinv : ({ cap := c, buf := some (List.replicate c d), size := z } : SeqInst α).Inv block := by
      exact ⟨by simp, hzc, Nat.pos_of_ne_zero h0, Nat.lt_of_le_of_lt hcl hlt, h1⟩
    exact copyContent_ok hinv h hcl (by simp) rfl hzl
      (by
          intro hz0
          have hz0 : z = 0 := hz0
          rcases Nat.eq_zero_or_pos bounds with hb | hb
          · rw [if_pos hb] at hz; omega
          · rw [if_neg (by omega)] at hz hc; omega)

theorem copy_eq_copyFrom (block : Nat) (d : α) (s : SeqInst α) :
    copy block d s = copyFrom block d id s 0 := by
  simp [copy, copyFrom]

theorem push_ext_ok {block : Nat} {d v : α} {s : SeqInst α} {bounds : Nat} (h : s.Inv block)
    (hb : bounds = 0 ∨ s.size < bounds) (hbl : bounds < 2 ^ 32)
    (hfit : 2 * (s.size + 1) * max block 1 < 2 ^ 32) :
    ∃ s', push block d s (.ext v) bounds = some s' := by
  have hm1 : 1 ≤ max block 1 := Nat.le_max_right _ _
  have hm2 : block ≤ max block 1 := Nat.le_max_left _ _
  have hf1 : 2 * (s.size + 1) * block < 2 ^ 32 :=
    Nat.lt_of_le_of_lt (Nat.mul_le_mul_left _ hm2) hfit
  have hf2 : 2 * (s.size + 1) < 2 ^ 32 := by
    have := Nat.mul_le_mul_left (2 * (s.size + 1)) hm1; omega
  have hle := inv_size_le h
  unfold push
  simp only
  by_cases hg : s.buf = none ∨ s.size = s.cap
  · simp only [hg, if_true]
    have hcap : s.cap = s.size := by
      rcases hg with hg | hg
      · unfold Inv at h; rw [hg] at h; omega
      · exact hg.symm
    generalize hdes : (if s.cap > 0 then u32 (s.cap * 2) else 1) = des
    have hdes' : s.size < des ∧ des ≤ 2 * (s.size + 1) := by
      rw [← hdes]; split
      · rw [u32_of_lt (by omega)]; omega
      · omega
    have hnc : ∃ nc, (if bounds = 0 then des else min des bounds) = nc ∧ s.size < nc ∧
        nc ≤ 2 * (s.size + 1) := by
      refine ⟨_, rfl, ?_, ?_⟩ <;> split <;> omega
    obtain ⟨nc, hnc, hlt, hle2⟩ := hnc
    obtain ⟨s1, hs1⟩ := realloc_ok (d := d) h nc hnc (by omega)
      (Nat.lt_of_le_of_lt (Nat.mul_le_mul_right _ hle2) hf1) (by omega)
    obtain ⟨i1, i2, i3, i4, -⟩ := realloc_spec h hs1
    rw [hs1]; simp only
    rw [hnc, u32_of_lt (by omega)] at i4
    unfold Inv at i1
    cases hb1 : s1.buf with
    | none => rw [hb1] at i1; omega
    | some l =>
      rw [hb1] at i1
      simp only
      rw [if_pos (by omega)]
      exact ⟨_, rfl⟩
  · simp only [hg, if_false]
    simp only [not_or] at hg
    unfold Inv at h
    cases hb1 : s.buf with
    | none => exact absurd hb1 hg.1
    | some l =>
      rw [hb1] at h
      simp only
      rw [if_pos (by omega)]
      exact ⟨_, rfl⟩

theorem resize_ok {block : Nat} {d : α} {s : SeqInst α} {n bounds : Nat} (h : s.Inv block)
    (hb : bounds = 0 ∨ n ≤ bounds) (hfit : n * max block 1 < 2 ^ 32) :
    ∃ s', resize block d s n bounds = some s' := by
  have hm1 : 1 ≤ max block 1 := Nat.le_max_right _ _
  have hm2 : block ≤ max block 1 := Nat.le_max_left _ _
  have hf1 : n * block < 2 ^ 32 := Nat.lt_of_le_of_lt (Nat.mul_le_mul_left _ hm2) hfit
  have hf2 : n < 2 ^ 32 := by have := Nat.mul_le_mul_left n hm1; omega
  unfold resize
  split
  · exact ⟨_, rfl⟩
  · rename_i hlt
    have hnc : (if bounds = 0 then n else min n bounds) = n := by split <;> omega
    obtain ⟨s1, hs1⟩ := realloc_ok (d := d) h n hnc hf2 hf1 (by omega)
    obtain ⟨i1, i2, i3, i4, -⟩ := realloc_spec h hs1
    rw [hs1]; simp only
    rw [hnc, u32_of_lt hf2] at i4
    unfold Inv at i1
    cases hb1 : s1.buf with
    | none => rw [hb1] at i1; omega
    | some l =>
      rw [hb1] at i1
      simp only
      rw [if_pos (by omega)]
      exact ⟨_, rfl⟩

end SeqInst

end Verif
