import Verif.Lemmas.Coordinates
/-! C20: coordinate lookup. -/
namespace Verif.Props
open Verif.Ids
open Verif.Path (Parsed)
open Verif.Coord (Coordinate)
open Verif.ValidateSpec

variable {V : Type} [ShapedValue V]

/-- **C20.** `coordinates[key]` returns exactly what the specification of coordinates says:
an index range, the coordinate node for the time mode, the values inside the elements, or the
one filled alternative. -/
theorem C20_lookup (x : Ctx V) (a : Addr) (key : Nat) (r : CoordResult V) :
    x.coordinate a key = .ok r ↔ Lookup x a key r := by
  constructor
  · intro h
    cases hc : (x.md a).coords[key]? with
    | none => simp [Ctx.coordinate, hc] at h
    | some c =>
      by_cases hr : c.references = []
      · simp only [Ctx.coordinate, hc, hr, if_true] at h
        obtain ⟨y, s, n, hy, hs, hn, rfl⟩ := range_ok.mp h
        exact .index hc hr hy hs hn
      · rw [coordinate_cases hc hr] at h
        cases hp : choosePath c x.timeMode with
        | error e => rw [hp] at h; simp at h
        | ok o =>
          rw [hp] at h
          cases o with
          | some p =>
            simp only at h
            have hu := choosePath_some.mp hp
            rcases alongPath_cases (x := x) (a := a) (p := p) with ⟨m, e, hx, hi, heq⟩ | ⟨hi, heq⟩
            · rw [heq] at h
              split at h
              · simp at h
              · next vs hv =>
                obtain ⟨rfl, s, hs⟩ := stackValues_ok.mp h
                exact .inside hc hr hu hi hx (elemValues_ok.mp hv) hs
            · rw [heq] at h
              obtain ⟨b, hb, ⟨ha, rfl⟩ | ⟨ha, y, n, cs, hy, hl, hcs, hpick⟩⟩ := outside_ok.mp h
              · exact .plain hc hr hu hi hb ha
              · rcases pickAlternative_ok.mp hpick with ⟨h0, rfl⟩ | ⟨pre, d, k, post, he, hk, h0, h1, rfl⟩
                · exact .primary hc hr hu hi hb ha hy hl hcs h0
                · exact .first hc hr hu hi hb ha hy hl hcs he hk h0 h1
          | none =>
            have hu := (choosePath_none hr).mp hp
            simp only at h
            split at h
            · simp at h
            · next cs hcs =>
              have hcs := refs_ok.mp hcs
              unfold Ctx.pickReference at h
              split at h
              · next hf =>
                split at h
                · next hsz =>
                  obtain ⟨y, s, n, hy, hs, hn, rfl⟩ := range_ok.mp h
                  exact .noneOf hc hr hu hcs (filter_nil_iff.mp hf)
                    (by intro e; simp [e] at hsz) hy hs hn
                · simp at h
              · next d hf =>
                simp at h; subst h
                obtain ⟨pre, post, he, h1, h2, h3⟩ := filter_cons_split hf
                refine .oneOf (d := d.1) (k := d.2) hc hr hu hcs he h1 ?_
                intro q hq
                rcases List.mem_append.mp hq with hq | hq
                · exact h2 q hq
                · exact filter_nil_iff.mp h3 q hq
              · simp at h
  · intro h
    cases h with
    | index hc hr hy hs hn =>
      simp only [Ctx.coordinate, hc, hr, if_true]
      exact range_ok.mpr ⟨_, _, _, hy, hs, hn, rfl⟩
    | inside hc hr hu hi he hv hs =>
      rw [coordinate_cases hc hr, choosePath_some.mpr hu]
      simp only
      rcases alongPath_cases (x := x) (a := a) with ⟨m, e, hx, -, heq⟩ | ⟨hi', -⟩
      · rw [heq]
        rw [he] at hx
        simp at hx
        obtain ⟨rfl, rfl⟩ := hx
        rw [elemValues_ok.mpr hv]
        exact stackValues_ok.mpr ⟨rfl, _, hs⟩
      · exact absurd hi hi'
    | plain hc hr hu hi hb ha =>
      rw [coordinate_cases hc hr, choosePath_some.mpr hu]
      simp only
      rcases alongPath_cases (x := x) (a := a) with ⟨m, e, hx, hi', -⟩ | ⟨-, heq⟩
      · exact absurd hi' hi
      · rw [heq]; exact outside_ok.mpr ⟨_, hb, .inl ⟨ha, rfl⟩⟩
    | primary hc hr hu hi hb ha hy hn hcs h0 =>
      rw [coordinate_cases hc hr, choosePath_some.mpr hu]
      simp only
      rcases alongPath_cases (x := x) (a := a) with ⟨m, e, hx, hi', -⟩ | ⟨-, heq⟩
      · exact absurd hi' hi
      · rw [heq]
        exact outside_ok.mpr ⟨_, hb, .inr ⟨ha, _, _, _, hy, hn, hcs,
          pickAlternative_ok.mpr (.inl ⟨h0, rfl⟩)⟩⟩
    | first hc hr hu hi hb ha hy hn hcs he hk h0 h1 =>
      rw [coordinate_cases hc hr, choosePath_some.mpr hu]
      simp only
      rcases alongPath_cases (x := x) (a := a) with ⟨m, e, hx, hi', -⟩ | ⟨-, heq⟩
      · exact absurd hi' hi
      · rw [heq]
        exact outside_ok.mpr ⟨_, hb, .inr ⟨ha, _, _, _, hy, hn, hcs,
          pickAlternative_ok.mpr (.inr ⟨_, _, _, _, he, hk, h0, h1, rfl⟩)⟩⟩
    | oneOf hc hr hu hcs he hk h0 =>
      rw [coordinate_cases hc hr, (choosePath_none hr).mpr hu]
      simp only [refs_ok.mpr hcs]
      unfold Ctx.pickReference
      rw [he, filter_split hk (fun q hq => h0 q (by simp [hq])),
        filter_nil_iff.mpr (fun q hq => h0 q (by simp [hq]))]
    | noneOf hc hr hu hcs h0 hsize hy hs hn =>
      rw [coordinate_cases hc hr, (choosePath_none hr).mpr hu]
      simp only [refs_ok.mpr hcs]
      unfold Ctx.pickReference
      rw [filter_nil_iff.mpr h0]
      simp only [Option.isSome_iff_ne_none.mpr hsize, if_true]
      exact range_ok.mpr ⟨_, _, _, hy, hs, hn, rfl⟩

/-- **C20.** A `CoordinateLookupError` is raised exactly if several alternatives are filled
(or filled with different lengths), or one is required and none is filled. -/
theorem C20_ambiguous (x : Ctx V) (a : Addr) (key : Nat) :
    x.coordinate a key = .error .lookup ↔ Ambiguous x a key := by
  constructor
  · intro h
    cases hc : (x.md a).coords[key]? with
    | none => simp [Ctx.coordinate, hc] at h
    | some c =>
      by_cases hr : c.references = []
      · simp only [Ctx.coordinate, hc, hr, if_true] at h
        exact absurd h range_ne_lookup
      · rw [coordinate_cases hc hr] at h
        cases hp : choosePath c x.timeMode with
        | error e => rw [hp] at h; exact absurd h (err_ne hp choosePath_ne_lookup)
        | ok o =>
          rw [hp] at h
          cases o with
          | some p =>
            simp only at h
            have hu := choosePath_some.mp hp
            rcases alongPath_cases (x := x) (a := a) (p := p) with ⟨m, e, hx, hi, heq⟩ | ⟨hi, heq⟩
            · rw [heq] at h
              cases hv : x.elemValues a p 0 e.length with
              | error err => rw [hv] at h; exact absurd h (err_ne hv elemValues_ne_lookup)
              | ok vs =>
                rw [hv] at h
                simp only [stackValues] at h
                split at h <;> simp at h
            · rw [heq] at h
              obtain ⟨b, hb, ha, y, n, cs, hy, hl, hcs, hpick⟩ := outside_lookup.mp h
              obtain ⟨d, e, hd, he, d0, e0, hne⟩ := pickAlternative_lookup.mp hpick
              exact .lengths hc hr hu hi hb ha hy hl hcs hd he d0 e0 hne
          | none =>
            have hu := (choosePath_none hr).mp hp
            simp only at h
            cases hcs : x.refs a c.references with
            | error e => rw [hcs] at h; exact absurd h (err_ne hcs refs_ne_lookup)
            | ok cs =>
              rw [hcs] at h
              simp only [Ctx.pickReference] at h
              have hcs := refs_ok.mp hcs
              split at h
              · next hf =>
                split at h
                · exact absurd h range_ne_lookup
                · next hsz =>
                  exact .missing hc hr hu hcs (filter_nil_iff.mp hf) (by simpa using hsz)
              · simp at h
              · next fs hf0 hf1 =>
                cases hfs : cs.filter (fun c => c.2 > 0) with
                | nil => exact absurd hfs hf0
                | cons d fs =>
                  cases fs with
                  | nil => exact absurd hfs (hf1 d)
                  | cons e fs =>
                    obtain ⟨pre, post, he, h1, h2, h3⟩ := filter_cons_split hfs
                    obtain ⟨pre', post', he', h1', h2', h3'⟩ := filter_cons_split h3
                    exact .several (pre := pre) (mid := pre') (post := post') hc hr hu hcs
                      (by rw [he, he']; simp) h1 h1'
  · intro h
    cases h with
    | lengths hc hr hu hi hb ha hy hn hcs hd he d0 e0 hde =>
      rw [coordinate_cases hc hr, choosePath_some.mpr hu]
      simp only
      rcases alongPath_cases (x := x) (a := a) with ⟨m, e, hx, hi', -⟩ | ⟨-, heq⟩
      · exact absurd hi' hi
      · rw [heq]
        exact outside_lookup.mpr ⟨_, hb, ha, _, _, _, hy, hn, hcs,
          pickAlternative_lookup.mpr ⟨_, _, hd, he, d0, e0, hde⟩⟩
    | @several c cs pre mid post d e hc hr hu hcs hs d0 e0 =>
      rw [coordinate_cases hc hr, (choosePath_none hr).mpr hu]
      simp only [refs_ok.mpr hcs]
      unfold Ctx.pickReference
      have hd : (pre ++ d :: mid ++ e :: post).filter (fun c => c.2 > 0) =
          pre.filter (fun c => c.2 > 0) ++ d :: (mid.filter (fun c => c.2 > 0) ++
            e :: post.filter (fun c => c.2 > 0)) := by
        rw [List.filter_append, List.filter_append, List.filter_cons_of_pos (by simp; omega),
          List.filter_cons_of_pos (by simp; omega)]
        simp
      rw [hs, hd]
      have hlen : ∀ l m n : List (Addr × Nat), (l ++ d :: (m ++ e :: n)).length ≥ 2 := by
        intro l m n; simp; omega
      generalize hg : pre.filter (fun c => c.2 > 0) ++ d :: (mid.filter (fun c => c.2 > 0) ++
            e :: post.filter (fun c => c.2 > 0)) = g
      have := hlen (pre.filter (fun c => c.2 > 0)) (mid.filter (fun c => c.2 > 0))
        (post.filter (fun c => c.2 > 0))
      rw [hg] at this
      match g, this with
      | [], h => simp at h
      | [_], h => simp at h
      | _ :: _ :: _, _ => rfl
    | missing hc hr hu hcs h0 hsize =>
      rw [coordinate_cases hc hr, (choosePath_none hr).mpr hu]
      simp only [refs_ok.mpr hcs]
      unfold Ctx.pickReference
      rw [filter_nil_iff.mpr h0]
      simp [hsize]

end Verif.Props
