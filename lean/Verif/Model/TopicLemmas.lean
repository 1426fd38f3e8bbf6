import Verif.Model.TrieLemmas
import Verif.Spec.Topic

/-!
# Facts about parsing topics
-/

namespace Verif

theorem fieldsAux_eq (sep : UInt8) (cur b : Bytes) :
    fieldsAux sep cur b = (((b.splitOn sep).modifyHead (cur ++ ·)).filter (· ≠ [])) := by
  induction b generalizing cur with
  | nil =>
    simp only [fieldsAux, List.splitOn, List.splitOnP_nil, List.modifyHead_cons, List.append_nil]
    by_cases h : cur = [] <;> simp [h]
  | cons x xs ih =>
    simp only [fieldsAux, List.splitOn, List.splitOnP_cons_eq_if_modifyHead] at *
    by_cases h : x = sep
    · simp only [h, if_true, beq_self_eq_true, List.modifyHead_cons, List.append_nil, ih]
      have e : ∀ l : List Bytes, l.modifyHead (([] : Bytes) ++ ·) = l := by
        intro l; cases l <;> simp
      rw [e]
      by_cases hc : cur = [] <;> simp [hc]
    · have hb : (x == sep) = false := by simpa using h
      simp only [h, if_false, hb, ih]
      have e : ∀ l : List Bytes, l.modifyHead ((cur ++ [x]) ++ ·) = (l.modifyHead (List.cons x)).modifyHead (cur ++ ·) := by
        intro l; cases l <;> simp
      rw [e]; rfl

theorem fields_eq (sep : UInt8) (b : Bytes) : fields sep b = (b.splitOn sep).filter (· ≠ []) := by
  rw [fields, fieldsAux_eq]
  congr 1
  cases b.splitOn sep <;> simp

theorem parseKey_topic (key : Bytes) : (parseKey key).1 = Spec.topicText key := by
  rw [parseKey, Spec.topicText, ← show fields 63 key = _ from fields_eq 63 key, show chQuery = 63 from rfl]
  split <;> simp_all

theorem hasSuffix_eq (b s : Bytes) : hasSuffix b s = s.isSuffixOf b := by
  rw [Bool.eq_iff_iff, List.isSuffixOf_iff_suffix]
  simp only [hasSuffix, Bool.and_eq_true, decide_eq_true_eq, beq_iff_eq]
  constructor
  · rintro ⟨_, h⟩
    have e := List.take_append_drop (b.length - s.length) b
    rw [h] at e
    exact ⟨_, e⟩
  · rintro ⟨a, rfl⟩
    simp

theorem fieldsAux_append_dots (sep : UInt8) (cur b : Bytes) (n : Nat) :
    fieldsAux sep cur (b ++ List.replicate n sep) = fieldsAux sep cur b := by
  induction b generalizing cur with
  | nil =>
    simp only [List.nil_append]
    induction n generalizing cur with
    | zero => simp
    | succ n ih =>
      rw [List.replicate_succ]
      simp only [fieldsAux, if_true]
      split
      · rename_i h; rw [ih]; simp [fieldsAux]
      · rename_i h; rw [ih]; simp [fieldsAux]
  | cons x xs ih => simp only [List.cons_append, fieldsAux, ih]

theorem trimDots_append (b : Bytes) : ∃ n, b = trimDots b ++ List.replicate n chDot := by
  refine ⟨(b.reverse.takeWhile (· == chDot)).length, ?_⟩
  have h := List.takeWhile_append_dropWhile (p := (· == chDot)) (l := b.reverse)
  have h2 : b = (b.reverse.dropWhile (· == chDot)).reverse ++ (b.reverse.takeWhile (· == chDot)).reverse := by
    rw [← List.reverse_append, h, List.reverse_reverse]
  have h3 : (b.reverse.takeWhile (· == chDot)).reverse = List.replicate (b.reverse.takeWhile (· == chDot)).length chDot := by
    rw [List.eq_replicate_iff]
    refine ⟨by simp, ?_⟩
    intro x hx
    have := List.all_takeWhile (p := (· == chDot)) (l := b.reverse)
    rw [List.all_eq_true] at this
    simpa using this x (List.mem_reverse.1 hx)
  rw [trimDots, ← h3]; exact h2

theorem fields_trimDots (b : Bytes) : fields chDot (trimDots b) = fields chDot b := by
  obtain ⟨n, h⟩ := trimDots_append b
  conv => rhs; rw [h, fields, fieldsAux_append_dots]
  rfl

/-- The parts for a literal level with hash `h`, `k` stars seen after it, and the remaining levels. -/
def encFrom (c : UInt32) (h : UInt32) (k : UInt8) : List Bytes → List Part
  | [] => [⟨h, k⟩]
  | l :: ls => if Spec.isStar l then encFrom c h (k + 1) ls else ⟨h, k⟩ :: encFrom c (Hash.withSalt l c) 0 ls

def finalParts (s : ParseState) : List Part :=
  if s.wild > 0 then s.parts.modify (s.parts.length - 1) (fun q => { q with wildchars := s.wild }) else s.parts

theorem isStar_eq (p : Bytes) : hasSuffix p [chStar] = Spec.isStar p := hasSuffix_eq p _

theorem modify_mid {α : Type} (a : List α) (x : α) (z : List α) (f : α → α) :
    (a ++ x :: z).modify a.length f = a ++ f x :: z := by
  induction a with
  | nil => simp
  | cons y a ih => simp [ih]

theorem parseLoop_enc (c : UInt32) (ls : List Bytes) :
    ∀ (done : List Part) (dep k : UInt8) (h : UInt32) (cnt : Nat) (ty : TopicType) (idx : Nat), idx = done.length + 1 + cnt →
    let s := parseLoop c ⟨done ++ [⟨h, 0⟩], dep, k, cnt, ty⟩ idx ls
    finalParts s = done ++ encFrom c h k ls ∧ s.depth = dep + UInt8.ofNat ls.length ∧
      s.ty = if ls.any Spec.isStar then .wildcard else ty := by
  induction ls with
  | nil =>
    intro done dep k h cnt ty idx hidx
    refine ⟨?_, by simp [parseLoop], by simp [parseLoop]⟩
    change (if k > 0 then (done ++ [(⟨h, 0⟩ : Part)]).modify ((done ++ [(⟨h, 0⟩ : Part)]).length - 1)
      (fun q => { q with wildchars := k }) else done ++ [⟨h, 0⟩]) = done ++ [⟨h, k⟩]
    by_cases hk : k > 0
    · rw [if_pos hk, show (done ++ [(⟨h, 0⟩ : Part)]).length - 1 = done.length by simp, modify_mid]
    · rw [if_neg hk]
      have : k = 0 := by
        apply UInt8.toNat.inj
        have : ¬ (0 : UInt8).toNat < k.toNat := fun h => hk (UInt8.lt_iff_toNat_lt.2 h)
        simp at this; simpa using this
      rw [this]
  | cons l ls ih =>
    intro done dep k h cnt ty idx hidx
    simp only [parseLoop, parseStep, isStar_eq]
    have hlen : dep + UInt8.ofNat (l :: ls).length = dep + 1 + UInt8.ofNat ls.length := by
      rw [List.length_cons, Nat.add_comm ls.length 1, UInt8.ofNat_add, UInt8.add_assoc]; rfl
    by_cases hs : Spec.isStar l = true
    · have hi : idx ≠ 0 := by omega
      simp only [hs, if_true, if_neg hi]
      have := ih done (dep + 1) (k + 1) h (cnt + 1) .wildcard (idx + 1) (by omega)
      simp only at this
      refine ⟨?_, ?_, ?_⟩
      · rw [this.1, encFrom, if_pos hs]
      · rw [this.2.1, hlen]
      · rw [this.2.2]; simp [hs]
    · have hs' : Spec.isStar l = false := by simpa using hs
      simp only [hs', Bool.false_eq_true, if_false]
      have hlt : cnt + 1 ≤ idx := by omega
      have hix : idx - cnt - 1 = done.length := by omega
      have hstate : (if k > 0 then
          ({ parts := ((done ++ [(⟨h, 0⟩ : Part)]) ++ [(⟨Hash.withSalt l c, 0⟩ : Part)]).modify
               (if cnt + 1 ≤ idx then idx - cnt - 1 else 0) (fun q => { q with wildchars := k }),
             depth := dep + 1, wild := 0, count := cnt, ty := ty } : ParseState)
          else { parts := (done ++ [⟨h, 0⟩]) ++ [⟨Hash.withSalt l c, 0⟩], depth := dep + 1, wild := k, count := cnt, ty := ty })
          = ⟨(done ++ [⟨h, k⟩]) ++ [⟨Hash.withSalt l c, 0⟩], dep + 1, 0, cnt, ty⟩ := by
        by_cases hk : k > 0
        · rw [if_pos hk, if_pos hlt, hix]
          simp only [List.append_assoc, List.singleton_append, modify_mid]
        · rw [if_neg hk]
          have : k = 0 := by
            apply UInt8.toNat.inj
            have : ¬ (0 : UInt8).toNat < k.toNat := fun h => hk (UInt8.lt_iff_toNat_lt.2 h)
            simp at this; simpa using this
          rw [this]
      rw [hstate]
      have := ih (done ++ [⟨h, k⟩]) (dep + 1) 0 (Hash.withSalt l c) cnt ty (idx + 1) (by simp; omega)
      simp only at this
      refine ⟨?_, ?_, ?_⟩
      · rw [this.1, encFrom, if_neg hs]; simp
      · rw [this.2.1, hlen]
      · rw [this.2.2]; simp [hs']

/-- The parts of a list of levels that does not start with a star. -/
def encLevels (c : UInt32) : List Bytes → List Part
  | [] => []
  | l :: ls => encFrom c (Hash.withSalt l c) 0 ls

/-- The closed form of `parseTopic` for a topic that does not start with a star level. -/
theorem parseTopic_eq (c : UInt32) (key : Bytes) (h : Spec.startsWithStar (Spec.topicText key) = false) :
    parseTopic c key =
      let t := Spec.topicText key
      (⟨⟨c, 0⟩ :: (encLevels c (Spec.levels t) ++ if Spec.isMulti t then [⟨wildcardHash, 0⟩] else []),
        (if Spec.isMulti t then 1 else 0) + UInt8.ofNat (Spec.levels t).length⟩,
       if Spec.isMulti t || (Spec.levels t).any Spec.isStar then .wildcard else .static) := by
  simp only [parseTopic, parseKey_topic]
  generalize Spec.topicText key = t at *
  have hm : hasSuffix t [chDot, chDot, chDot] = Spec.isMulti t := hasSuffix_eq t _
  have hf : fields chDot (if Spec.isMulti t then trimDots t else t) = Spec.levels t := by
    rw [Spec.levels, ← show fields chDot t = _ from fields_eq 46 t]
    split
    · exact fields_trimDots t
    · rfl
  simp only [parseWildcard, hm, hf, Topic.addContract]
  cases hl : Spec.levels t with
  | nil =>
    simp only [parseLoop, encLevels, List.any_nil, Bool.or_false, List.length_nil]
    cases Spec.isMulti t <;> simp
  | cons l ls =>
    have hs : Spec.isStar l = false := by
      simpa [Spec.startsWithStar, hl] using h
    have key : ∀ dep ty, parseLoop c ⟨[], dep, 0, 0, ty⟩ 0 (l :: ls) =
        parseLoop c ⟨[] ++ [⟨Hash.withSalt l c, 0⟩], dep + 1, 0, 0, ty⟩ 1 ls := by
      intro dep ty
      simp [parseLoop, parseStep, isStar_eq, hs]
    rw [key]
    have := parseLoop_enc c ls [] ((if Spec.isMulti t then 1 else 0) + 1) 0 (Hash.withSalt l c) 0
      (if Spec.isMulti t then .wildcard else .static) 1 (by simp)
    simp only [finalParts] at this
    obtain ⟨h1, h2, h3⟩ := this
    have hlen : ∀ dep : UInt8, dep + 1 + UInt8.ofNat ls.length = dep + UInt8.ofNat (l :: ls).length := by
      intro dep
      rw [List.length_cons, Nat.add_comm ls.length 1, UInt8.ofNat_add, UInt8.add_assoc]; rfl
    rw [h1, h2, h3, hlen]
    simp only [encLevels, List.nil_append, List.any_cons, hs, Bool.false_or]
    cases Spec.isMulti t <;> simp

end Verif
