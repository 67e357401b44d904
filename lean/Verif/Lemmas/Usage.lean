import Verif.Spec.Usage
/-!
Counting in `Model/Usage.lean`.
-/
namespace Verif.Usage
open Verif.Ids Verif.UsageSpec

section
variable {A : Type}

def keys (d : List (Text × A)) : List Text := d.map (·.1)

theorem find_alter (k k' : Text) (f : Option A → A) : ∀ d : List (Text × A),
    find k (alter k' f d) = if k = k' then some (f (find k' d)) else find k d
  | [] => by
    by_cases h : k = k'
    · simp [alter, find, h]
    · simp [alter, find, h, Ne.symm h]
  | (q, v) :: r => by
    have ih := find_alter k k' f r
    by_cases hq : q = k'
    · subst hq
      by_cases h : k = q
      · subst h; simp [alter, find]
      · simp [alter, find, h, Ne.symm h]
    · by_cases h : k = k'
      · subst h
        simp only [alter, hq, if_false, find, ih, if_true]
      · simp only [alter, hq, if_false, find, ih, h]

theorem keys_alter (k : Text) (f : Option A → A) : ∀ d : List (Text × A),
    keys (alter k f d) = if k ∈ keys d then keys d else keys d ++ [k]
  | [] => by simp [alter, keys]
  | (q, v) :: r => by
    have ih := keys_alter k f r
    have hc : ∀ (w : A) l, keys ((q, w) :: l) = q :: keys l := fun _ _ => rfl
    by_cases hq : q = k
    · subst hq; simp [alter, hc]
    · rw [alter, if_neg hq, hc, hc, ih]
      by_cases hk : k ∈ keys r
      · rw [if_pos hk, if_pos (List.mem_cons_of_mem _ hk)]
      · rw [if_neg hk, if_neg]
        · rfl
        · intro h
          rcases List.mem_cons.1 h with h | h
          · exact hq h.symm
          · exact hk h

theorem nodup_alter {k : Text} {f : Option A → A} {d : List (Text × A)} (h : (keys d).Nodup) :
    (keys (alter k f d)).Nodup := by
  rw [keys_alter]
  split
  · exact h
  · next hk =>
    rw [List.nodup_append]
    refine ⟨h, by simp, ?_⟩
    intro a ha b hb e
    rw [List.mem_singleton] at hb
    exact hk (by rw [← hb, ← e]; exact ha)

theorem mem_of_find {k : Text} {v : A} : ∀ {d : List (Text × A)}, find k d = some v → (k, v) ∈ d
  | [], h => by simp [find] at h
  | (q, w) :: r, h => by
    by_cases hq : q = k
    · simp only [find, hq, if_true, Option.some.injEq] at h
      simp [hq, h]
    · simp only [find, hq, if_false] at h
      exact List.mem_cons_of_mem _ (mem_of_find h)

theorem find_of_mem {k : Text} {v : A} : ∀ {d : List (Text × A)}, (keys d).Nodup → (k, v) ∈ d → find k d = some v
  | [], _, h => by simp at h
  | (q, w) :: r, hn, h => by
    simp only [keys, List.map_cons, List.nodup_cons] at hn
    rcases List.mem_cons.1 h with h | h
    · cases h; simp [find]
    · have : q ≠ k := by
        rintro rfl
        exact hn.1 (List.mem_map.2 ⟨_, h, rfl⟩)
      simp only [find, this, if_false]
      exact find_of_mem hn.2 h

theorem find_isSome {k : Text} : ∀ {d : List (Text × A)}, (find k d).isSome = true ↔ k ∈ keys d
  | [] => by simp [find, keys]
  | (q, w) :: r => by
    have ih := find_isSome (k := k) (d := r)
    by_cases hq : q = k
    · simp [find, keys, hq]
    · simp only [keys] at ih ⊢
      simp [find, hq, ih, Ne.symm hq]

end

/-! ### Sorting -/

section
variable {A : Type} {le : A → A → Bool}

theorem insertBy_perm (x : A) : ∀ l : List A, (insertBy le x l).Perm (x :: l)
  | [] => .refl _
  | y :: r => by
    rw [insertBy]
    split
    · exact .refl _
    · exact ((insertBy_perm x r).cons y).trans (.swap x y r)

theorem sortBy_perm : ∀ l : List A, (sortBy le l).Perm l
  | [] => .refl _
  | x :: r => (insertBy_perm x _).trans ((sortBy_perm r).cons x)

theorem mem_sortBy {x : A} {l : List A} : x ∈ sortBy le l ↔ x ∈ l := (sortBy_perm l).mem_iff

theorem insertBy_sorted {x : A} : ∀ {l : List A},
    (∀ a ∈ x :: l, ∀ b ∈ x :: l, ∀ c ∈ x :: l, le a b = true → le b c = true → le a c = true) →
    (∀ a ∈ x :: l, ∀ b ∈ x :: l, le a b = true ∨ le b a = true) →
    l.Pairwise (fun a b => le a b = true) → (insertBy le x l).Pairwise fun a b => le a b = true
  | [], _, _, _ => by simp [insertBy]
  | y :: r, ht, hl, hs => by
    have hm : ∀ a, a ∈ x :: r → a ∈ x :: y :: r := by
      intro a ha
      rcases List.mem_cons.1 ha with rfl | ha
      · exact List.mem_cons_self ..
      · exact List.mem_cons_of_mem _ (List.mem_cons_of_mem _ ha)
    have hx : x ∈ x :: y :: r := List.mem_cons_self ..
    have hy : y ∈ x :: y :: r := List.mem_cons_of_mem _ (List.mem_cons_self ..)
    rw [List.pairwise_cons] at hs
    rw [insertBy]
    split
    · next h =>
      rw [List.pairwise_cons, List.pairwise_cons]
      refine ⟨?_, hs⟩
      intro a ha
      rcases List.mem_cons.1 ha with rfl | ha
      · exact h
      · exact ht x hx y hy a (hm a (List.mem_cons_of_mem _ ha)) h (hs.1 a ha)
    · next h =>
      rw [List.pairwise_cons]
      refine ⟨?_, insertBy_sorted (fun a ha b hb c hc => ht a (hm a ha) b (hm b hb) c (hm c hc))
        (fun a ha b hb => hl a (hm a ha) b (hm b hb)) hs.2⟩
      intro a ha
      rcases List.mem_cons.1 ((insertBy_perm x r).mem_iff.1 ha) with rfl | ha
      · exact (hl a hx y hy).resolve_left h
      · exact hs.1 a ha

theorem sortBy_sorted : ∀ {l : List A},
    (∀ a ∈ l, ∀ b ∈ l, ∀ c ∈ l, le a b = true → le b c = true → le a c = true) →
    (∀ a ∈ l, ∀ b ∈ l, le a b = true ∨ le b a = true) → (sortBy le l).Pairwise fun a b => le a b = true
  | [], _, _ => by simp [sortBy]
  | x :: r, ht, hl => by
    have hm : ∀ a, a ∈ x :: sortBy le r → a ∈ x :: r := by
      intro a ha
      rcases List.mem_cons.1 ha with rfl | ha
      · exact List.mem_cons_self ..
      · exact List.mem_cons_of_mem _ (mem_sortBy.1 ha)
    refine insertBy_sorted (fun a ha b hb c hc => ht a (hm a ha) b (hm b hb) c (hm c hc))
      (fun a ha b hb => hl a (hm a ha) b (hm b hb)) (sortBy_sorted ?_ ?_)
    · intro a ha b hb c hc
      exact ht a (List.mem_cons_of_mem _ ha) b (List.mem_cons_of_mem _ hb) c (List.mem_cons_of_mem _ hc)
    · intro a ha b hb
      exact hl a (List.mem_cons_of_mem _ ha) b (List.mem_cons_of_mem _ hb)

end

/-! ### Counters -/

/-- How often a path was counted. -/
def cnt (c : Counter) (p : Text) : Nat := (find p c).getD 0

theorem cnt_update (p : Text) : ∀ (l : List Text) (c : Counter), cnt (c.update l) p = cnt c p + l.count p
  | [], c => by simp [Counter.update]
  | k :: r, c => by
    rw [Counter.update, cnt_update p r]
    simp only [cnt, find_alter, List.count_cons]
    by_cases h : p = k
    · subst h; simp; omega
    · simp [h, Ne.symm h]

theorem has_update (p : Text) : ∀ (l : List Text) (c : Counter),
    (find p (c.update l)).isSome = ((find p c).isSome || l.contains p)
  | [], c => by simp [Counter.update]
  | k :: r, c => by
    rw [Counter.update, has_update p r, find_alter]
    by_cases h : p = k
    · subst h; simp
    · simp [h]

theorem nodup_update : ∀ (l : List Text) {c : Counter}, (keys c).Nodup → (keys (c.update l)).Nodup
  | [], _, h => h
  | _ :: r, _, h => nodup_update r (nodup_alter h)

/-! ### Usages -/

/-- The usage of an IDS. -/
def use (d : Usages) (n : Text) : Usage := (find n d).getD {}

theorem use_alter (d : Usages) (n k : Text) (g : Usage → Usage) :
    use (alter k (fun o => g (o.getD {})) d) n = if n = k then g (use d k) else use d n := by
  unfold use
  rw [find_alter]
  split <;> simp [*]

/-- No key twice. -/
def Dict (d : Usages) : Prop := (keys d).Nodup ∧ ∀ n, (keys (use d n).paths).Nodup

theorem dict_nil : Dict [] := ⟨by simp [keys], by intro n; simp [use, find, keys]⟩

theorem dict_alter {d : Usages} (h : Dict d) (k : Text) (g : Usage → Usage)
    (hg : (keys (g (use d k)).paths).Nodup) : Dict (alter k (fun o => g (o.getD {})) d) := by
  refine ⟨nodup_alter h.1, ?_⟩
  intro n
  rw [use_alter]
  split
  · exact hg
  · exact h.2 n

def has (d : Usages) (n : Text) : Bool := (find n d).isSome
def hasPath (d : Usages) (n p : Text) : Bool := (find p (use d n).paths).isSome

theorem has_alter (d : Usages) (n k : Text) (f : Option Usage → Usage) :
    has (alter k f d) n = (n == k || has d n) := by
  unfold has
  rw [find_alter]
  by_cases h : n = k <;> simp [h]

/-- The sum of how often a path is listed for an IDS. -/
def listed (n p : Text) : List IdsInfo → Nat
  | [] => 0
  | i :: r => (if i.name = n then i.filled.count p else 0) + listed n p r

theorem addInfos_spec : ∀ (l : List IdsInfo) (this occ : Usages), Dict this → Dict occ →
    Dict (addInfos l (this, occ)).1 ∧ Dict (addInfos l (this, occ)).2 ∧
    (∀ n, has (addInfos l (this, occ)).1 n = (has this n || l.any fun i => i.name == n)) ∧
    (∀ n p, hasPath (addInfos l (this, occ)).1 n p =
      (hasPath this n p || l.any fun i => i.name == n && i.filled.contains p)) ∧
    (∀ n, has (addInfos l (this, occ)).2 n = (has occ n || l.any fun i => i.name == n)) ∧
    (∀ n, (use (addInfos l (this, occ)).2 n).num = (use occ n).num + (l.filter fun i => i.name == n).length) ∧
    (∀ n p, hasPath (addInfos l (this, occ)).2 n p =
      (hasPath occ n p || l.any fun i => i.name == n && i.filled.contains p)) ∧
    ∀ n p, cnt (use (addInfos l (this, occ)).2 n).paths p = cnt (use occ n).paths p + listed n p l
  | [], this, occ, h1, h2 => by simp [addInfos, h1, h2, listed]
  | i :: r, this, occ, h1, h2 => by
    have d1 := dict_alter h1 i.name (fun u => { u with paths := u.paths.update i.filled })
      (nodup_update _ (h1.2 i.name))
    have d2 := dict_alter h2 i.name (fun u => { num := u.num + 1, paths := u.paths.update i.filled })
      (nodup_update _ (h2.2 i.name))
    have u1 := fun n => use_alter this n i.name (fun u => { u with paths := u.paths.update i.filled })
    have u2 := fun n => use_alter occ n i.name (fun u => { num := u.num + 1, paths := u.paths.update i.filled })
    obtain ⟨e1, e2, a, b, c, d, e, f⟩ := addInfos_spec r _ _ d1 d2
    refine ⟨e1, e2, ?_, ?_, ?_, ?_, ?_, ?_⟩
    · intro n
      refine (a n).trans ?_
      rw [has_alter]
      by_cases h : n = i.name
      · simp [h]
      · simp [h, Ne.symm h, beq_eq_false_iff_ne.2 h, beq_eq_false_iff_ne.2 (Ne.symm h)]
    · intro n p
      refine (b n p).trans ?_
      unfold hasPath
      rw [u1]
      by_cases h : n = i.name
      · subst h; simp [has_update, Bool.or_assoc]
      · simp [h, Ne.symm h, beq_eq_false_iff_ne.2 h, beq_eq_false_iff_ne.2 (Ne.symm h)]
    · intro n
      refine (c n).trans ?_
      rw [has_alter]
      by_cases h : n = i.name
      · simp [h]
      · simp [h, Ne.symm h, beq_eq_false_iff_ne.2 h, beq_eq_false_iff_ne.2 (Ne.symm h)]
    · intro n
      refine (d n).trans ?_
      rw [u2]
      by_cases h : n = i.name
      · subst h; simp; omega
      · simp [h, Ne.symm h, beq_eq_false_iff_ne.2 h, beq_eq_false_iff_ne.2 (Ne.symm h)]
    · intro n p
      refine (e n p).trans ?_
      unfold hasPath
      rw [u2]
      by_cases h : n = i.name
      · subst h; simp [has_update, Bool.or_assoc]
      · simp [h, Ne.symm h, beq_eq_false_iff_ne.2 h, beq_eq_false_iff_ne.2 (Ne.symm h)]
    · intro n p
      refine (f n p).trans ?_
      rw [u2]
      by_cases h : n = i.name
      · subst h; simp [cnt_update, listed]; omega
      · simp [h, Ne.symm h, listed]

theorem count_keys {c : Counter} (h : (keys c).Nodup) (p : Text) :
    (keys c).count p = if (find p c).isSome then 1 else 0 := by
  by_cases hp : p ∈ keys c
  · rw [if_pos (find_isSome.2 hp)]
    rw [List.Nodup.count h, if_pos hp]
  · rw [if_neg (fun e => hp (find_isSome.1 e))]
    exact List.count_eq_zero.2 hp

theorem use_cons (m n : Text) (u : Usage) (r : Usages) : use ((m, u) :: r) n = if m = n then u else use r n := by
  unfold use
  rw [find]
  split <;> rfl

theorem addUsages_spec : ∀ (us s : Usages), Dict us → Dict s →
    Dict (addUsages us s) ∧
    (∀ n, has (addUsages us s) n = (has s n || has us n)) ∧
    (∀ n, (use (addUsages us s) n).num = (use s n).num + if has us n then 1 else 0) ∧
    (∀ n p, hasPath (addUsages us s) n p = (hasPath s n p || hasPath us n p)) ∧
    ∀ n p, cnt (use (addUsages us s) n).paths p = cnt (use s n).paths p + if hasPath us n p then 1 else 0
  | [], s, _, h => by simp [addUsages, h, has, hasPath, use, find]
  | (m, u) :: r, s, h, hs => by
    have hr : Dict r := by
      have h1 := h.1
      simp only [keys, List.map_cons, List.nodup_cons] at h1
      refine ⟨h1.2, fun n => ?_⟩
      have h2 := h.2 n
      rw [use_cons] at h2
      split at h2
      · next e =>
        subst e
        have : find m r = none := by
          cases hf : find m r with
          | none => rfl
          | some w => exact absurd (List.mem_map.2 ⟨_, mem_of_find hf, rfl⟩) h1.1
        simp [use, this, keys]
      · exact h2
    have hm : find m r = none := by
      have h1 := h.1
      simp only [keys, List.map_cons, List.nodup_cons] at h1
      cases hf : find m r with
      | none => rfl
      | some w => exact absurd (List.mem_map.2 ⟨_, mem_of_find hf, rfl⟩) h1.1
    have hu : (keys u.paths).Nodup := by
      have := h.2 m
      rw [use_cons, if_pos rfl] at this
      exact this
    have d1 := dict_alter hs m (fun o => { num := o.num + 1, paths := o.paths.update (u.paths.map (·.1)) })
      (nodup_update _ (hs.2 m))
    have u1 := fun n => use_alter s n m (fun o => { num := o.num + 1, paths := o.paths.update (u.paths.map (·.1)) })
    obtain ⟨e1, a, b, c, d⟩ := addUsages_spec r _ hr d1
    refine ⟨e1, ?_, ?_, ?_, ?_⟩
    · intro n
      refine (a n).trans ?_
      rw [has_alter]
      by_cases hn : n = m
      · subst hn; simp [has, find]
      · have hn' := beq_eq_false_iff_ne.2 hn
        rw [show has ((m, u) :: r) n = has r n by simp [has, find, Ne.symm hn]]
        simp [hn, hn']
    · intro n
      refine (b n).trans ?_
      rw [u1]
      by_cases hn : n = m
      · subst hn; simp [has, find, hm]
      · have hn' := beq_eq_false_iff_ne.2 hn
        rw [show has ((m, u) :: r) n = has r n by simp [has, find, Ne.symm hn]]
        simp [hn, hn']
    · intro n p
      refine (c n p).trans ?_
      unfold hasPath
      rw [u1, use_cons]
      by_cases hn : n = m
      · subst hn
        have : use r n = {} := by simp [use, hm]
        simp only [if_true, this, has_update]
        rw [show (find p (({} : Usage).paths)).isSome = false from rfl, Bool.or_false]
        congr 1
        rw [Bool.eq_iff_iff, find_isSome, List.contains_iff_mem]; rfl
      · simp [hn, Ne.symm hn]
    · intro n p
      refine (d n p).trans ?_
      unfold hasPath
      rw [u1, use_cons]
      by_cases hn : n = m
      · subst hn
        have : use r n = {} := by simp [use, hm]
        simp only [if_true, this, cnt_update]
        rw [show (find p (({} : Usage).paths)).isSome = false from rfl]
        rw [show (u.paths.map (·.1)) = keys u.paths from rfl, count_keys hu]
        simp
      · simp [hn, Ne.symm hn]

/-! ### Everything -/

/-- What is counted after the entries `E`. -/
structure Counted (E : List EntryInfo) (s : Stats) : Prop where
  dict : Dict s.entry
  dictOcc : Dict s.occ
  num : s.num = E.length
  has : ∀ n, has s.entry n = E.any (hasIds n)
  entries : ∀ n, (use s.entry n).num = E.countP (hasIds n)
  path : ∀ n p, hasPath s.entry n p = E.any (fills n p)
  paths : ∀ n p, cnt (use s.entry n).paths p = E.countP (fills n p)
  hasOcc : ∀ n, Usage.has s.occ n = E.any (hasIds n)
  occs : ∀ n, (use s.occ n).num = (occurrences n E).length
  occPath : ∀ n p, hasPath s.occ n p = E.any (fills n p)
  occPaths : ∀ n p, cnt (use s.occ n).paths p = listed n p (E.flatMap (·.ids))

theorem listed_append (n p : Text) : ∀ l m : List IdsInfo, listed n p (l ++ m) = listed n p l + listed n p m
  | [], m => by simp [listed]
  | i :: r, m => by simp only [List.cons_append, listed, listed_append n p r m]; omega

theorem counted_nil : Counted [] {} :=
  ⟨dict_nil, dict_nil, rfl, fun _ => rfl, fun _ => rfl, fun _ _ => rfl, fun _ _ => rfl, fun _ => rfl, fun _ => rfl,
    fun _ _ => rfl, fun _ _ => rfl⟩

theorem counted_add {E : List EntryInfo} {s : Stats} (h : Counted E s) (e : EntryInfo) : Counted (E ++ [e]) (addEntry s e) := by
  obtain ⟨a1, a2, a3, a4, a5, a6, a7, a8⟩ := addInfos_spec e.ids [] s.occ dict_nil h.dictOcc
  obtain ⟨b1, b2, b3, b4, b5⟩ := addUsages_spec _ s.entry a1 h.dict
  have t1 : ∀ n, Usage.has (addInfos e.ids ([], s.occ)).1 n = hasIds n e := by
    intro n; rw [a3]; simp [Usage.has, find, hasIds]
  have t2 : ∀ n p, hasPath (addInfos e.ids ([], s.occ)).1 n p = fills n p e := by
    intro n p; rw [a4]; simp [hasPath, use, find, fills]
  refine ⟨b1, a2, ?_, ?_, ?_, ?_, ?_, ?_, ?_, ?_, ?_⟩
  · simp [addEntry, h.num]
  · intro n; refine (b2 n).trans ?_; rw [t1, h.has]; simp
  · intro n; refine (b3 n).trans ?_; rw [t1, h.entries]; simp [List.countP_append, List.countP_cons]
  · intro n p; refine (b4 n p).trans ?_; rw [t2, h.path]; simp
  · intro n p; refine (b5 n p).trans ?_; rw [t2, h.paths]; simp [List.countP_append, List.countP_cons]
  · intro n; refine (a5 n).trans ?_; rw [h.hasOcc]; simp [hasIds]
  · intro n; refine (a6 n).trans ?_; rw [h.occs]; simp [occurrences]
  · intro n p; refine (a7 n p).trans ?_; rw [h.occPath]; simp [fills]
  · intro n p; refine (a8 n p).trans ?_; rw [h.occPaths]; simp [listed_append]

theorem counted_entries : ∀ (l : List EntryInfo) {E : List EntryInfo} {s : Stats}, Counted E s →
    Counted (E ++ l) (addEntries s l)
  | [], E, s, h => by simpa [addEntries] using h
  | e :: r, E, s, h => by
    have := counted_entries r (counted_add h e)
    rw [List.append_assoc] at this
    exact this

theorem counted_files : ∀ (fs : List (List EntryInfo)) {E : List EntryInfo} {s : Stats}, Counted E s →
    Counted (E ++ fs.flatten) (collect s fs)
  | [], E, s, h => by simpa [collect] using h
  | f :: r, E, s, h => by
    have := counted_files r (counted_entries f h)
    rw [List.append_assoc] at this
    exact this

theorem counted (fs : List (List EntryInfo)) : Counted fs.flatten (collect {} fs) := by
  simpa using counted_files fs counted_nil

theorem listed_once {n p : Text} : ∀ {l : List IdsInfo}, (∀ i ∈ l, i.filled.Nodup) →
    listed n p l = (l.filter fun i => i.name == n).countP fun i => i.filled.contains p
  | [], _ => rfl
  | i :: r, h => by
    have ih := listed_once (n := n) (p := p) (l := r) fun j hj => h j (List.mem_cons_of_mem _ hj)
    have hi := h i (List.mem_cons_self ..)
    rw [listed, ih]
    by_cases e : i.name = n
    · by_cases hp : p ∈ i.filled
      · simp [e, List.countP_cons, hp, List.Nodup.count hi, Nat.add_comm]
      · simp [e, List.countP_cons, hp, List.count_eq_zero.2 hp]
    · simp [e]

end Verif.Usage
