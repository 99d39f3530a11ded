import Verif.Sym.Stats
import Verif.Props.Codelets

/-!
# The operation counts of the generated code: C73
-/

namespace Mandelbrot.Sym

open Sig (Sg)

namespace Spec

/-- The kinds of operations that are counted. -/
inductive Kind where
  | neg
  | add
  | mul
  | call
  | other
  deriving DecidableEq

/-- How many operations of a kind an expression spells out: each occurrence counts. -/
def opsOf (k : Kind) : Ex → ℕ
  | .var _ _ => 0
  | .int _ => 0
  | .other _ _ _ => 0
  | .field x _ _ => opsOf k x
  | .neg x _ => opsOf k x + if k = .neg then 1 else 0
  | .add x y _ => opsOf k x + opsOf k y + if k = .add then 1 else 0
  | .sub x y _ => opsOf k x + opsOf k y + if k = .add then 1 else 0
  | .mul x y _ => opsOf k x + opsOf k y + if k = .mul then 1 else 0
  | .div x _ _ => opsOf k x + if k = .other then 1 else 0
  | .call1 _ x _ => opsOf k x + if k = .call then 1 else 0
  | .call2 _ x y _ => opsOf k x + opsOf k y + if k = .call then 1 else 0
  | .call3 _ x y z _ => opsOf k x + opsOf k y + opsOf k z + if k = .call then 1 else 0

/-- The operations on a line. -/
def opsOfItem (k : Kind) : Item → ℕ
  | .decl _ => 0
  | .def _ e => opsOf k e
  | .out e => opsOf k e

/-- The operations in the code. -/
def opsOfCode (k : Kind) (l : List Item) : ℕ := (l.map (opsOfItem k)).sum

/-- The count of a kind. -/
def countOf (k : Kind) (s : Stats) : ℕ :=
  match k with
  | .neg => s.negs
  | .add => s.adds
  | .mul => s.muls
  | .call => s.calls
  | .other => s.others

/-- The kinds in the order of the comment, with their names. -/
def kinds : List (Kind × String) := [(.add, "add"), (.mul, "mul"), (.neg, "neg"), (.call, "call"), (.other, "other")]

/-- A number of things, in the singular or the plural. -/
def amount (n : ℕ) (thing : String) : String := toString n ++ " " ++ (if n = 1 then thing else thing ++ "s")

/-- Words with plus signs between them. -/
def plus : List String → String
  | [] => ""
  | [a] => a
  | a :: b :: l => a ++ " + " ++ plus (b :: l)

/-- The comment for given numbers of operations: the kinds that do not occur are left out. -/
def comment (c : Kind → ℕ) : String :=
  "// " ++ amount ((kinds.map fun p => c p.1).sum) "op" ++ " = " ++ plus ((kinds.filter fun p => c p.1 ≠ 0).map fun p => amount (c p.1) p.2)

end Spec

open Spec

section
variable {C : Cfg} {k : Kind}

theorem res_bind {α β : Type} {x : Res α} {f : α → Res β} {b : β} (h : (x >>= f) = .ok b) : ∃ a, x = .ok a ∧ f a = .ok b := by
  cases x with
  | error e => cases h
  | ok a => exact ⟨a, rfl, h⟩

/-- The operation at the top of an expression. -/
def topOf (k : Kind) (e : Ex) : ℕ := countOf k (Stats.add {} e)

theorem countOf_add (s : Stats) (e : Ex) : countOf k (s.add e) = countOf k s + topOf k e := by
  cases e <;> cases k <;> simp [topOf, countOf, Stats.add]

theorem opsOfCode_append (l l' : List Item) : opsOfCode k (l ++ l') = opsOfCode k l + opsOfCode k l' := by
  simp [opsOfCode]

theorem computeS_blk : ∀ (x : Ex) (B : SBlk), (computeS C x B).map (fun p => (p.1, p.2.blk)) = compute C x B.blk := by
  have ar : ∀ (x : Ex) (B : SBlk) (k : Res (Ex × SBlk)) (k' : Res (Ex × Blk)), k.map (fun p => (p.1, p.2.blk)) = k' →
      (B.around C x k).map (fun p => (p.1, p.2.blk)) = B.blk.around C x k' := by
    intro x B k k' h
    subst h
    unfold SBlk.around Blk.around
    cases B.blk.lets (x.sig C) with
    | some v => rfl
    | none =>
      simp only
      split_ifs
      · rfl
      · cases k <;> rfl
  have b1 : ∀ {x1 : Ex} (mk : Ex → Ex) (B : SBlk), (computeS C x1 B).map (fun p => (p.1, p.2.blk)) = compute C x1 B.blk →
      (do let (a, B) ← computeS C x1 B; return (mk a, B) : Res (Ex × SBlk)).map (fun p => (p.1, p.2.blk)) =
        (do let (a, B) ← compute C x1 B.blk; return (mk a, B) : Res (Ex × Blk)) := by
    intro x1 mk B h
    rw [← h]
    cases computeS C x1 B <;> rfl
  have b2 : ∀ {x1 x2 : Ex} (mk : Ex → Ex → Ex) (B : SBlk), (∀ B, (computeS C x1 B).map (fun p => (p.1, p.2.blk)) = compute C x1 B.blk) →
      (∀ B, (computeS C x2 B).map (fun p => (p.1, p.2.blk)) = compute C x2 B.blk) →
      (do let (a, B) ← computeS C x1 B; let (b, B) ← computeS C x2 B; return (mk a b, B) : Res (Ex × SBlk)).map (fun p => (p.1, p.2.blk)) =
        (do let (a, B) ← compute C x1 B.blk; let (b, B) ← compute C x2 B; return (mk a b, B) : Res (Ex × Blk)) := by
    intro x1 x2 mk B h1 h2
    rw [← h1]
    cases computeS C x1 B with
    | error e => rfl
    | ok r => exact b1 (fun b => mk r.1 b) r.2 (h2 r.2)
  intro x
  induction x with
  | var v s | int n | other t p s => intro B; exact ar _ _ _ _ rfl
  | field x f s ih => intro B; exact ar _ _ _ _ (b1 (fun a => .field a f s) B (ih B))
  | neg x s ih => intro B; exact ar _ _ _ _ (b1 (fun a => .neg a s) B (ih B))
  | div x n s ih => intro B; exact ar _ _ _ _ (b1 (fun a => .div a n s) B (ih B))
  | call1 f x s ih => intro B; exact ar _ _ _ _ (b1 (fun a => .call1 f a s) B (ih B))
  | add x y s ihx ihy => intro B; exact ar _ _ _ _ (b2 (fun a b => .add a b s) B ihx ihy)
  | sub x y s ihx ihy => intro B; exact ar _ _ _ _ (b2 (fun a b => .sub a b s) B ihx ihy)
  | mul x y s ihx ihy => intro B; exact ar _ _ _ _ (b2 (fun a b => .mul a b s) B ihx ihy)
  | call2 f x y s ihx ihy => intro B; exact ar _ _ _ _ (b2 (fun a b => .call2 f a b s) B ihx ihy)
  | call3 f x y z s ihx ihy ihz =>
    intro B
    refine ar _ _ _ _ ?_
    rw [← ihx]
    cases computeS C x B with
    | error e => rfl
    | ok r => exact b2 (fun b c => .call3 f r.1 b c s) r.2 ihy ihz

/-- What is counted is what is written, in the code and in the result. -/
def Counted (k : Kind) (B : SBlk) (r : Ex × SBlk) : Prop :=
  opsOfCode k r.2.blk.code + opsOf k r.1 + countOf k B.stats = opsOfCode k B.blk.code + countOf k r.2.stats

theorem around_counted {x : Ex} {B : SBlk} {m : Res (Ex × SBlk)} (hl : ∀ s v, B.blk.lets s = some v → opsOf k v = 0)
    (hm : ∀ q, m = .ok q → (∀ s v, q.2.blk.lets s = some v → opsOf k v = 0) ∧
      opsOfCode k q.2.blk.code + opsOf k q.1 + countOf k B.stats = opsOfCode k B.blk.code + countOf k q.2.stats + topOf k q.1)
    {r : Ex × SBlk} (h : B.around C x m = .ok r) : (∀ s v, r.2.blk.lets s = some v → opsOf k v = 0) ∧ Counted k B r := by
  unfold SBlk.around at h
  cases hv : B.blk.lets (x.sig C) with
  | some v =>
    rw [hv] at h
    cases h
    refine ⟨hl, ?_⟩
    have := hl _ _ hv
    simp only [Counted, this]
    omega
  | none =>
    rw [hv] at h
    simp only at h
    split_ifs at h with hc
    cases m with
    | error e => cases h
    | ok q =>
      obtain ⟨q1, q2⟩ := hm q rfl
      cases h
      unfold Counted
      simp only [countOf_add]
      unfold Blk.finish
      split_ifs with hf
      · exact ⟨q1, by simp only; omega⟩
      · refine ⟨fun s v h => ?_, ?_⟩
        · simp only [Blk.now] at h
          split_ifs at h
          · cases h; rfl
          · exact q1 _ _ h
        · simp only [Blk.now, opsOfCode_append, opsOf]
          simp only [opsOfCode, List.map_cons, List.map_nil, List.sum_cons, List.sum_nil, opsOfItem]
          unfold opsOfCode at q2
          omega

theorem computeS_counted : ∀ (x : Ex) {B : SBlk}, (∀ s v, B.blk.lets s = some v → opsOf k v = 0) → ∀ {r : Ex × SBlk}, computeS C x B = .ok r →
    (∀ s v, r.2.blk.lets s = some v → opsOf k v = 0) ∧ Counted k B r := by
  intro x
  induction x with
  | var v s | int n | other t p s =>
    intro B hl r h
    exact around_counted hl (fun q hq => by cases hq; exact ⟨hl, by simp [opsOf, topOf, Stats.add]; cases k <;> rfl⟩) h
  | field x f s ih | neg x s ih | div x n s ih | call1 f x s ih =>
    intro B hl r h
    refine around_counted hl (fun q hq => ?_) h
    obtain ⟨a, e1, hq⟩ := res_bind hq
    cases hq
    obtain ⟨l1, c1⟩ := ih hl e1
    refine ⟨l1, ?_⟩
    unfold Counted at c1
    simp only [opsOf, topOf, Stats.add]
    cases k <;> simp [countOf] at c1 ⊢ <;> omega
  | add x y s ihx ihy | sub x y s ihx ihy | mul x y s ihx ihy | call2 f x y s ihx ihy =>
    intro B hl r h
    refine around_counted hl (fun q hq => ?_) h
    obtain ⟨a, e1, hq⟩ := res_bind hq
    obtain ⟨b, e2, hq⟩ := res_bind hq
    cases hq
    obtain ⟨l1, c1⟩ := ihx hl e1
    obtain ⟨l2, c2⟩ := ihy l1 e2
    refine ⟨l2, ?_⟩
    unfold Counted at c1 c2
    simp only [opsOf, topOf, Stats.add]
    cases k <;> simp [countOf] at c1 c2 ⊢ <;> omega
  | call3 f x y z s ihx ihy ihz =>
    intro B hl r h
    refine around_counted hl (fun q hq => ?_) h
    obtain ⟨a, e1, hq⟩ := res_bind hq
    obtain ⟨b, e2, hq⟩ := res_bind hq
    obtain ⟨c, e3, hq⟩ := res_bind hq
    cases hq
    obtain ⟨l1, c1⟩ := ihx hl e1
    obtain ⟨l2, c2⟩ := ihy l1 e2
    obtain ⟨l3, c3⟩ := ihz l2 e3
    refine ⟨l3, ?_⟩
    unfold Counted at c1 c2 c3
    simp only [opsOf, topOf, Stats.add]
    cases k <;> simp [countOf] at c1 c2 c3 ⊢ <;> omega

theorem runActsS_counted : ∀ (l : List Act) {B B' : SBlk}, (∀ s v, B.blk.lets s = some v → opsOf k v = 0) → runActsS C l B = .ok B' →
    opsOfCode k B'.blk.code + countOf k B.stats = opsOfCode k B.blk.code + countOf k B'.stats := by
  intro l
  induction l with
  | nil => intro B B' _ h; cases h; rfl
  | cons a l ih =>
    intro B B' hl h
    unfold runActsS at h
    cases ha : a.execS C B with
    | error e => rw [ha] at h; cases h
    | ok B1 =>
      rw [ha] at h
      have hh : (∀ s v, B1.blk.lets s = some v → opsOf k v = 0) ∧
          opsOfCode k B1.blk.code + countOf k B.stats = opsOfCode k B.blk.code + countOf k B1.stats := by
        cases a with
        | input v =>
          obtain ⟨b, e1, e2⟩ := res_bind ha
          cases e2
          unfold Blk.input at e1
          obtain ⟨u, e1, e2⟩ := res_bind e1
          cases e2
          exact ⟨hl, by simp [opsOfCode, opsOfItem]⟩
        | use x => cases ha; exact ⟨hl, rfl⟩
        | out x =>
          simp only [Act.execS] at ha
          cases hc : computeS C x B with
          | error e => rw [hc] at ha; cases ha
          | ok r =>
            rw [hc] at ha
            cases ha
            obtain ⟨l1, c1⟩ := computeS_counted x hl hc
            refine ⟨l1, ?_⟩
            unfold Counted at c1
            simp only [opsOfCode_append]
            simp only [opsOfCode, List.map_cons, List.map_nil, List.sum_cons, List.sum_nil, opsOfItem] at c1 ⊢
            omega
      have := ih hh.1 h
      omega

/-- With the counts or without, the same is written, and the same calls fail. -/
theorem runActsS_blk : ∀ (l : List Act) (B : SBlk), (runActsS C l B).map SBlk.blk = runActs C l B.blk := by
  intro l
  induction l with
  | nil => intro B; rfl
  | cons a l ih =>
    intro B
    unfold runActsS runActs
    have ha : (a.execS C B).map SBlk.blk = a.exec C B.blk := by
      cases a with
      | input v => simp only [Act.execS, Act.exec]; cases B.blk.input v <;> rfl
      | use x => rfl
      | out x =>
        simp only [Act.execS, Act.exec]
        rw [← computeS_blk]
        cases computeS C x B <;> rfl
    rw [← ha]
    cases a.execS C B with
    | error e => rfl
    | ok B1 => exact ih B1

/-- **C73.** Whatever is asked of a block, the counts in its closing comment are the numbers of negations, of additions and
subtractions, of products, of calls and of divisions spelled out in the code that was written, temporaries and results together.  The
counting does not change what is written. -/
theorem C73_counts {l : List Act} {B : SBlk} (h : runActsS C l ⟨Blk.empty, {}⟩ = .ok B) :
    (∀ k, countOf k B.stats = opsOfCode k B.blk.code) ∧ runActs C l Blk.empty = .ok B.blk := by
  refine ⟨fun k => ?_, ?_⟩
  · have := runActsS_counted (k := k) l (B := ⟨Blk.empty, {}⟩) (fun s v h => by cases h) h
    have h0 : countOf k (({} : Stats)) = 0 := by cases k <;> rfl
    have h1 : opsOfCode k Blk.empty.code = 0 := rfl
    simp only [h0, h1] at this
    omega
  · rw [← runActsS_blk l ⟨Blk.empty, {}⟩, h]
    rfl

/-- **C73.** The counting makes no call fail. -/
theorem C73_succeeds {l : List Act} {b : Blk} (h : runActs C l Blk.empty = .ok b) : ∃ B, runActsS C l ⟨Blk.empty, {}⟩ = .ok B ∧ B.blk = b := by
  have := runActsS_blk (C := C) l ⟨Blk.empty, {}⟩
  rw [h] at this
  cases hr : runActsS C l ⟨Blk.empty, {}⟩ with
  | error e => rw [hr] at this; cases this
  | ok B => rw [hr] at this; exact ⟨B, rfl, Except.ok.inj this⟩

end

/-! ## The text -/

theorem digits_text (n : ℕ) : (toString n).toList = Nat.toDigits 10 n := by rw [Nat.toString_eq_repr, Nat.toList_repr]

theorem digits_digit {n : ℕ} {c : Char} (h : c ∈ (toString n).toList) : c.isDigit = true :=
  Nat.isDigit_of_mem_toDigits (by norm_num) (by norm_num) (digits_text n ▸ h)

theorem digits_ne {n : ℕ} {d : Char} (hd : d.isDigit = false) : d ∉ (toString n).toList := fun h => by
  rw [digits_digit h] at hd; cases hd

theorem digits_inj {m n : ℕ} (h : (toString m).toList = (toString n).toList) : m = n := by
  rw [digits_text, digits_text] at h
  rw [← Nat.ofDigitChars_toDigits (b := 10) (n := m) (by norm_num) (by norm_num), h, Nat.ofDigitChars_toDigits (by norm_num) (by norm_num)]

/-- A prefix without a character, up to that character. -/
theorem cut_inj {c : Char} {a a' b b' : List Char} (h : a ++ c :: b = a' ++ c :: b') (ha : c ∉ a) (ha' : c ∉ a') : a = a' ∧ b = b' := by
  induction a generalizing a' with
  | nil =>
    cases a' with
    | nil => simpa using h
    | cons x a' => simp only [List.nil_append, List.cons_append, List.cons.injEq] at h; exact absurd (by simp [h.1]) ha'
  | cons x a ih =>
    cases a' with
    | nil => simp only [List.nil_append, List.cons_append, List.cons.injEq] at h; exact absurd (by simp [h.1]) ha
    | cons x' a' =>
      simp only [List.cons_append, List.cons.injEq] at h
      obtain ⟨h1, h2⟩ := ih h.2 (fun hh => ha (List.mem_cons_of_mem _ hh)) fun hh => ha' (List.mem_cons_of_mem _ hh)
      exact ⟨by rw [h.1, h1], h2⟩

theorem parts_inj {c : Char} : ∀ (l l' : List (List Char)), (∀ s ∈ l, c ∉ s) → (∀ s ∈ l', c ∉ s) →
    l.flatMap (c :: ·) = l'.flatMap (c :: ·) → l = l'
  | [], [], _, _, _ => rfl
  | [], s :: l', _, _, h => by simp at h
  | s :: l, [], _, _, h => by simp at h
  | s :: l, s' :: l', h1, h2, h => by
    simp only [List.flatMap_cons, List.cons_append, List.cons.injEq, true_and] at h
    have key : ∀ l : List (List Char), l.flatMap (c :: ·) = [] ∨ ∃ b, l.flatMap (c :: ·) = c :: b := by
      intro l
      cases l with
      | nil => exact .inl rfl
      | cons a l => exact .inr ⟨a ++ l.flatMap (c :: ·), by simp⟩
    have h3 : s = s' ∧ l.flatMap (c :: ·) = l'.flatMap (c :: ·) := by
      have h' : s ++ c :: ((l.flatMap (c :: ·)) ++ [c]).tail = s' ++ c :: ((l'.flatMap (c :: ·)) ++ [c]).tail := by
        have e : ∀ l : List (List Char), c :: ((l.flatMap (c :: ·)) ++ [c]).tail = l.flatMap (c :: ·) ++ [c] := by
          intro l
          rcases key l with e | ⟨b, e⟩ <;> rw [e] <;> rfl
        rw [e, e, ← List.append_assoc, ← List.append_assoc, h]
      obtain ⟨hs, -⟩ := cut_inj h' (h1 s List.mem_cons_self) (h2 s' List.mem_cons_self)
      subst hs
      exact ⟨rfl, List.append_cancel_left h⟩
    rw [h3.1, parts_inj l l' (fun x hx => h1 x (List.mem_cons_of_mem _ hx)) (fun x hx => h2 x (List.mem_cons_of_mem _ hx)) h3.2]

theorem join_fold (sep : String) : ∀ (l : List String) (j : String), j.toList ≠ [] →
    (l.foldl (fun j s => (if j.length ≠ 0 then j ++ sep else j) ++ s) j).toList = j.toList ++ l.flatMap fun s => sep.toList ++ s.toList
  | [], j, _ => by simp
  | s :: l, j, h => by
    have hj : j.length ≠ 0 := fun e => h (List.length_eq_zero_iff.mp (by rwa [String.length_toList]))
    rw [List.foldl_cons, if_pos hj, join_fold sep l _ (by simp [h])]
    simp

theorem join_cons (sep a : String) (l : List String) (h : a.toList ≠ []) :
    (joinText sep (a :: l)).toList = a.toList ++ l.flatMap fun s => sep.toList ++ s.toList := by
  unfold joinText
  rw [List.foldl_cons, if_neg (by simp)]
  have : ("" ++ a : String) = a := by apply String.toList_inj.mp; simp
  rw [this, join_fold sep l a h]

theorem join_inj {l l' : List String} (h : joinText " + " l = joinText " + " l') (h1 : ∀ s ∈ l, s.toList ≠ [] ∧ '+' ∉ s.toList)
    (h2 : ∀ s ∈ l', s.toList ≠ [] ∧ '+' ∉ s.toList) : l = l' := by
  have key : ∀ (a : String) (l : List String), a.toList ≠ [] → '+' :: ' ' :: ((joinText " + " (a :: l)).toList ++ [' ']) =
      ((a :: l).map fun s => ' ' :: (s.toList ++ [' '])).flatMap ('+' :: ·) := by
    intro a l ha
    rw [join_cons _ _ _ ha]
    have : ∀ l : List String, (l.flatMap fun s => (" + " : String).toList ++ s.toList) ++ [' '] =
        ' ' :: (l.map fun s => ' ' :: (s.toList ++ [' '])).flatMap ('+' :: ·) := by
      intro l
      induction l with
      | nil => rfl
      | cons s l ih =>
        rw [List.flatMap_cons, List.append_assoc, ih]
        simp
    rw [List.append_assoc, this]
    simp
  cases l with
  | nil =>
    cases l' with
    | nil => rfl
    | cons a l' =>
      have := congrArg String.toList h
      rw [join_cons _ _ _ (h2 a List.mem_cons_self).1] at this
      have e : (joinText " + " []).toList = [] := by decide
      rw [e] at this
      exact absurd (List.append_eq_nil_iff.mp this.symm).1 (h2 a List.mem_cons_self).1
  | cons a l =>
    cases l' with
    | nil =>
      have := congrArg String.toList h
      rw [join_cons _ _ _ (h1 a List.mem_cons_self).1] at this
      have e : (joinText " + " []).toList = [] := by decide
      rw [e] at this
      exact absurd (List.append_eq_nil_iff.mp this).1 (h1 a List.mem_cons_self).1
    | cons a' l' =>
      have hk := key a l (h1 a List.mem_cons_self).1
      rw [h, key a' l' (h2 a' List.mem_cons_self).1] at hk
      have hp : ∀ l : List String, (∀ s ∈ l, s.toList ≠ [] ∧ '+' ∉ s.toList) → ∀ t ∈ l.map (fun s => ' ' :: (s.toList ++ [' '])), '+' ∉ t := by
        intro l hl t ht
        obtain ⟨s, hs, rfl⟩ := List.mem_map.mp ht
        have := (hl s hs).2
        simp [this]
      have hq := parts_inj _ _ (hp _ h2) (hp _ h1) hk
      refine (List.map_injective_iff.mpr ?_ hq).symm
      intro s t hst
      simp only [List.cons.injEq, true_and] at hst
      exact String.toList_inj.mp (List.append_cancel_right hst)

theorem term_chars {name : String} {n : ℕ} {t : String} (h : t ∈ statsTerm name n) {c : Char} (hc : c ∈ t.toList) :
    c.isDigit = true ∨ c = ' ' ∨ c ∈ name.toList ∨ c = 's' := by
  unfold statsTerm at h
  split_ifs at h with h0 <;> simp only [List.mem_singleton, List.not_mem_nil] at h
  all_goals
    subst h
    simp only [String.toList_append, List.mem_append] at hc
    rcases hc with ((hc | hc) | hc) | hc
    · exact .inl (digits_digit hc)
    · exact .inr (.inl (by simpa using hc))
    · exact .inr (.inr (.inl hc))
    · exact .inr (.inr (.inr (by revert hc; simp)))

theorem term_name {name : String} {n : ℕ} {t : String} (h : t ∈ statsTerm name n) {c : Char} (hc : c ∈ name.toList) : c ∈ t.toList := by
  unfold statsTerm at h
  split_ifs at h <;> simp only [List.mem_singleton, List.not_mem_nil] at h
  all_goals
    subst h
    simp [hc]

theorem term_inj {name : String} {n n' : ℕ} (h : statsTerm name n = statsTerm name n') : n = n' := by
  by_cases h1 : n = 0
  · by_cases h2 : n' = 0
    · rw [h1, h2]
    · simp [statsTerm, h1, h2] at h
  · by_cases h2 : n' = 0
    · simp [statsTerm, h1, h2] at h
    · unfold statsTerm at h
      rw [if_pos h1, if_pos h2, List.cons.injEq] at h
      have h := congrArg String.toList h.1
      simp only [String.toList_append, List.append_assoc] at h
      exact digits_inj (cut_inj h (digits_ne (by decide)) (digits_ne (by decide))).1

/-- The terms of the text. -/
def termsOf (s : Stats) : List String :=
  statsTerm "add" s.adds ++ statsTerm "mul" s.muls ++ statsTerm "neg" s.negs ++ statsTerm "call" s.calls ++ statsTerm "other" s.others

theorem termsOf_chars {s : Stats} {t : String} (h : t ∈ termsOf s) : t.toList ≠ [] ∧ '+' ∉ t.toList := by
  simp only [termsOf, List.mem_append] at h
  constructor
  · intro e
    rcases h with (((h | h) | h) | h) | h
    · have := term_name h (c := 'd') (by decide); rw [e] at this; cases this
    · have := term_name h (c := 'm') (by decide); rw [e] at this; cases this
    · have := term_name h (c := 'g') (by decide); rw [e] at this; cases this
    · have := term_name h (c := 'c') (by decide); rw [e] at this; cases this
    · have := term_name h (c := 'o') (by decide); rw [e] at this; cases this
  · intro hc
    rcases h with (((h | h) | h) | h) | h <;> exact absurd (term_chars h hc) (by decide)

/-- The terms with a letter of one name only. -/
theorem filter_term {name : String} {n : ℕ} {c : Char} (b : Bool) (h : ∀ t ∈ statsTerm name n, decide (c ∈ t.toList) = b) :
    (statsTerm name n).filter (fun t => decide (c ∈ t.toList)) = if b then statsTerm name n else [] := by
  cases b
  · simp only [Bool.false_eq_true, if_false]
    exact List.filter_eq_nil_iff.mpr fun t ht => by rw [h t ht]; decide
  · simp only [if_true]
    exact List.filter_eq_self.mpr h

theorem absent {name : String} {n : ℕ} {c : Char} (h : ¬(c.isDigit = true ∨ c = ' ' ∨ c ∈ name.toList ∨ c = 's')) :
    ∀ t ∈ statsTerm name n, decide (c ∈ t.toList) = false := fun _ ht => decide_eq_false fun hc => h (term_chars ht hc)

theorem present {name : String} {n : ℕ} {c : Char} (h : c ∈ name.toList) :
    ∀ t ∈ statsTerm name n, decide (c ∈ t.toList) = true := fun _ ht => decide_eq_true (term_name ht h)

theorem termsOf_inj {s s' : Stats} (h : termsOf s = termsOf s') : s = s' := by
  have f : ∀ c, (termsOf s).filter (fun t => decide (c ∈ t.toList)) = (termsOf s').filter (fun t => decide (c ∈ t.toList)) := fun c => by rw [h]
  simp only [termsOf, List.filter_append] at f
  have h1 := f 'd'
  have h2 := f 'm'
  have h3 := f 'g'
  have h4 := f 'c'
  have h5 := f 'o'
  simp only [filter_term false (absent (name := "add") (c := 'm') (by decide)), filter_term false (absent (name := "add") (c := 'g') (by decide)),
    filter_term false (absent (name := "add") (c := 'c') (by decide)), filter_term false (absent (name := "add") (c := 'o') (by decide)),
    filter_term false (absent (name := "mul") (c := 'd') (by decide)), filter_term false (absent (name := "mul") (c := 'g') (by decide)),
    filter_term false (absent (name := "mul") (c := 'c') (by decide)), filter_term false (absent (name := "mul") (c := 'o') (by decide)),
    filter_term false (absent (name := "neg") (c := 'd') (by decide)), filter_term false (absent (name := "neg") (c := 'm') (by decide)),
    filter_term false (absent (name := "neg") (c := 'c') (by decide)), filter_term false (absent (name := "neg") (c := 'o') (by decide)),
    filter_term false (absent (name := "call") (c := 'd') (by decide)), filter_term false (absent (name := "call") (c := 'm') (by decide)),
    filter_term false (absent (name := "call") (c := 'g') (by decide)), filter_term false (absent (name := "call") (c := 'o') (by decide)),
    filter_term false (absent (name := "other") (c := 'd') (by decide)), filter_term false (absent (name := "other") (c := 'm') (by decide)),
    filter_term false (absent (name := "other") (c := 'g') (by decide)), filter_term false (absent (name := "other") (c := 'c') (by decide)),
    filter_term true (present (name := "add") (c := 'd') (by decide)), filter_term true (present (name := "mul") (c := 'm') (by decide)),
    filter_term true (present (name := "neg") (c := 'g') (by decide)), filter_term true (present (name := "call") (c := 'c') (by decide)),
    filter_term true (present (name := "other") (c := 'o') (by decide)), Bool.false_eq_true, if_false, if_true, List.nil_append,
    List.append_nil] at h1 h2 h3 h4 h5
  cases s
  cases s'
  simp only [Stats.mk.injEq]
  exact ⟨term_inj h3, term_inj h1, term_inj h2, term_inj h4, term_inj h5⟩

/-- **C73.** The closing comment can be read back: blocks with the same comment have the same counts. -/
theorem C73_text {B B' : SBlk} (h : B.closing = B'.closing) : B.stats = B'.stats := by
  have h := congrArg String.toList h
  simp only [SBlk.closing, Stats.show, String.toList_append] at h
  have h := List.append_cancel_left h
  have pl : ∀ n : ℕ, '=' ∉ ((if n = 1 then "" else "s" : String)).toList := fun n => by split_ifs <;> decide
  have e : (" = " : String).toList = ' ' :: '=' :: [' '] := by decide
  simp only [e, List.append_assoc, List.cons_append, List.nil_append] at h
  have cut := @cut_inj '='
  have h' : ∀ (a b c : List Char) (r : List Char), a ++ (b ++ (c ++ ' ' :: '=' :: r)) = (a ++ b ++ c ++ [' ']) ++ '=' :: r := by
    intros; simp
  rw [h', h'] at h
  have hn : ∀ n : ℕ, '=' ∉ (toString n).toList ++ (" op" : String).toList ++ ((if n = 1 then "" else "s" : String)).toList ++ [' '] := by
    intro n hm
    simp only [List.mem_append] at hm
    rcases hm with ((hm | hm) | hm) | hm
    · exact digits_ne (by decide) hm
    · revert hm; decide
    · exact pl n hm
    · revert hm; decide
  have h := (cut h (hn _) (hn _)).2
  simp only [List.cons.injEq, true_and] at h
  simp only [← List.append_assoc] at h
  exact termsOf_inj (join_inj (String.toList_inj.mp h) (fun _ => termsOf_chars) fun _ => termsOf_chars)

section
variable {C : Cfg}

theorem join_plus : ∀ l : List String, (∀ s ∈ l, s.toList ≠ []) → joinText " + " l = plus l := by
  have key : ∀ (l : List String) (a : String), (plus (a :: l)).toList = a.toList ++ l.flatMap fun s => (" + " : String).toList ++ s.toList := by
    intro l
    induction l with
    | nil => intro a; simp [plus]
    | cons b l ih => intro a; rw [plus, String.toList_append, String.toList_append, ih b]; simp
  intro l h
  cases l with
  | nil => rfl
  | cons a l =>
    apply String.toList_inj.mp
    rw [join_cons _ _ _ (h a List.mem_cons_self), key]

theorem show_comment (s : Stats) : "// " ++ s.show = comment fun k => countOf k s := by
  have ha : ∀ (n : ℕ) (w : String), amount n w = toString n ++ " " ++ w ++ (if n = 1 then "" else "s") := by
    intro n w
    unfold amount
    apply String.toList_inj.mp
    split_ifs <;> simp
  have ht : termsOf s = (kinds.filter fun p => countOf p.1 s ≠ 0).map fun p => amount (countOf p.1 s) p.2 := by
    have h1 : ∀ (k : Kind) (w : String) (l : List (Kind × String)),
        (((k, w) :: l).filter fun p => countOf p.1 s ≠ 0).map (fun p => amount (countOf p.1 s) p.2) =
          statsTerm w (countOf k s) ++ (l.filter fun p => countOf p.1 s ≠ 0).map fun p => amount (countOf p.1 s) p.2 := by
      intro k w l
      rw [List.filter_cons]
      by_cases h : countOf k s = 0 <;> simp [h, statsTerm, ha]
    rw [kinds, h1, h1, h1, h1, h1]
    simp [termsOf, countOf]
  rw [comment, ← ht, ← join_plus _ fun t h => (termsOf_chars h).1]
  have hsum : (kinds.map fun p => countOf p.1 s).sum = s.adds + s.muls + s.negs + s.calls + s.others := by
    simp only [kinds, List.map_cons, List.map_nil, List.sum_cons, List.sum_nil, countOf]
    omega
  rw [hsum]
  apply String.toList_inj.mp
  simp only [Stats.show, termsOf, amount, String.toList_append]
  split_ifs <;> simp

/-- **C73.** The closing comment, from the code that was written: the number of all operations that are spelled out, and the number
for each kind that occurs. -/
theorem C73_comment {l : List Act} {B : SBlk} (h : runActsS C l ⟨Blk.empty, {}⟩ = .ok B) :
    B.closing = comment fun k => opsOfCode k B.blk.code := by
  rw [SBlk.closing, show_comment]
  congr 1
  funext k
  exact (C73_counts h).1 k

end

/-- An example for `C73_counts`, `C73_comment` and `C73_text`: `t = x + y` is used twice and written once. -/
example : ∃ B, runActsS exampleCfg
    (let x := Ex.var "x" fun _ => 1000
     let y := Ex.var "y" fun _ => 3000
     let s := Ex.add x y fun _ => 4000
     let p := Ex.mul s s fun _ => 16000000
     [.input "x", .input "y", .use p, .out p]) ⟨Blk.empty, {}⟩ = .ok B ∧ B.stats = { adds := 1, muls := 1 } ∧
    B.closing = "// 2 ops = 1 add + 1 mul" ∧ ∀ B' : SBlk, B'.closing = B.closing → B'.stats.adds = 1 := by
  refine ⟨_, rfl, rfl, by decide +kernel, fun B' h => ?_⟩
  rw [C73_text h]
  rfl

example : Stats.show { adds := 12, negs := 1, calls := 2 } = "15 ops = 12 adds + 1 neg + 2 calls" := by decide +kernel

end Mandelbrot.Sym
