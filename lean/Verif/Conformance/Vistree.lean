import Verif.Conformance.Support

/-!
# The unit tests of `VistreeGenerator`, evaluated on the model

One `example` for each expectation in
capi/test/visibility_graphs/code/visgraph/test_vistree_generator.cpp.  These are tests of the
model against what the authors of the program expect of it, not proofs about it.  As there, the
vertices are compared up to order.
-/

namespace Capi.Conformance

/-- test_vistree_generator.cpp:26-58 "Vistree Generator get visible vertices from root" -/
example : sees
    [[deg 1 0, deg 0 1, deg (-1) 0, deg (-1) (-1), deg 0 (-1), deg 0.3 (-0.5)],
     [deg 3 (-1), deg 2 (-2), deg 2.9 (-3), deg 3 (-3), deg 4 (-2)]]
    (deg 1.000000 0.000) false
    [(deg 0 (-1), false), (deg 2 (-2), false), (deg 3 (-1), false), (deg 0 1, false), (deg 0.3
     (-0.5), false)] = true := by
  decide +kernel

/-- test_vistree_generator.cpp:60-89 "Vistree Generator get visible vertices from root half scan" -/
example : sees
    [[deg 1 0, deg 0 1, deg (-1) 0, deg (-1) (-1), deg 0 (-1), deg 0.3 (-0.5)],
     [deg 3 (-1), deg 2 (-2), deg 2.9 (-3), deg 3 (-3), deg 4 (-2)]]
    (deg 1.000000 0.000) true
    [(deg 0 1, false)] = true := by
  decide +kernel

/-- test_vistree_generator.cpp:91-112 "Vistree Generator get visible vertices from root root on edge" -/
example : sees
    [[deg 1 0, deg 0 1, deg (-1) 0, deg (-1) (-1), deg 0 (-1), deg 0.3 (-0.5)]]
    (deg 0.5 0.5) false
    [(deg 1 0, false), (deg 0 1, false)] = true := by
  decide +kernel

/-- test_vistree_generator.cpp:114-143 "Vistree Generator get visible vertices from root isolated" -/
example : sees
    [[deg 1 0, deg 0 1, deg (-1) 0, deg (-1) (-1), deg 0 (-1), deg 0.3 (-0.5)],
     [deg 3 (-1), deg 2 (-2), deg 2.9 (-3), deg 3 (-3), deg 4 (-2)]]
    (deg 3.000 (-3.000)) false
    [(deg 2.9 (-3), false), (deg 4 (-2), false)] = true := by
  decide +kernel

/-- test_vistree_generator.cpp:145-177 "Vistree Generator get visible vertices from concave root" -/
example : sees
    [[deg 1 0, deg 0 1, deg (-1) 0, deg (-1) (-1), deg 0 (-1), deg 0.3 (-0.5)],
     [deg 3 (-1), deg 2 (-2), deg 2.9 (-3), deg 3 (-3), deg 4 (-2)]]
    (deg 0.3 (-0.5)) false
    [(deg 2 (-2), false), (deg 2.9 (-3), false), (deg 3 (-1), false), (deg 0 (-1), false), (deg 1 0,
     false)] = true := by
  decide +kernel

/-- test_vistree_generator.cpp:179-202 "Vistree Generator get visible vertices from concave root 2" -/
example : sees
    [[deg 1.5 1, deg (-1.5) 1, deg (-1.5) (-2), deg (-1) (-1), deg 0 0, deg 1 (-1), deg 1.5 (-2)]]
    (deg 0 0) false
    [(deg (-1.5) (-2), false), (deg (-1) (-1), false), (deg 1 (-1), false), (deg 1.5 (-2), false)] = true := by
  decide +kernel

/-- test_vistree_generator.cpp:204-227 "Vistree Generator get visible vertices from concave root 3" -/
example : sees
    [[deg 1.5 1, deg (-1.5) 1, deg (-1.5) (-2), deg (-1) (-1), deg 0 0, deg 1 (-1), deg 1.5 (-2)]]
    (deg 1 (-1)) false
    [(deg 0 0, false), (deg 1.5 (-2), false), (deg (-1) (-1), false), (deg (-1.5) (-2), false)] = true := by
  decide +kernel

/-- test_vistree_generator.cpp:229-244 "Vistree Generator collinear" -/
example : sees
    [[deg 0.0 0.0, deg 2.0 2.0]]
    (deg 0.0 0.0) false
    [(deg 2 2, false)] = true := by
  decide +kernel

/-- test_vistree_generator.cpp:246-273 "Vistree Generator collinear above" -/
example : sees
    [[deg 0 0, deg 1 1, deg 2 (-1), deg (-2) (-1), deg (-1) 1],
     [deg 0 2, deg 1 3, deg 0 4, deg (-1) 3]]
    (deg 0 0) false
    [(deg (-1) 3, false), (deg (-1) 1, false), (deg 0 2, false), (deg 1 1, false), (deg 1 3, false)] = true := by
  decide +kernel

/-- test_vistree_generator.cpp:275-310 "Vistree generator collinear 2" -/
example : sees
    [[deg 0 1, deg 1 0, deg (-1) (-1), deg 0 0],
     [deg (-10) (-0.01), deg (-20.1) (-1), deg (-20) 0, deg (-20) (-0.02)],
     [deg ((-20) - period64) (-0.38), deg ((-30) - period64) (-0.39), deg ((-25) - period64) (-5)]]
    (deg 0 0) false
    [(deg (-20.1) (-1), false), (deg (-20) 0, false), (deg (-10) (-0.01), false), (deg (-1) (-1),
     false), (deg 0 1, false)] = true := by
  decide +kernel

/-- test_vistree_generator.cpp:312-347 "Vistree generator collinear 3" -/
example : sees
    [[deg 0 1, deg 1 0, deg (-1) (-1), deg 0 0],
     [deg (-10) (-0.001), deg (-20.1) (-1), deg (-20) 0, deg (-20) (-0.002)],
     [deg ((-20) - period64) (-0.038), deg ((-30) - period64) (-0.03905), deg ((-25) - period64)
      (-5)]]
    (deg 0 0) false
    [(deg (-20.1) (-1), false), (deg (-20) 0, false), (deg (-10) (-0.001), false), (deg (-1) (-1),
     false), (deg 0 1, false)] = true := by
  decide +kernel

/-- test_vistree_generator.cpp:349-376 "Vistree generator collinear 4" -/
example : sees
    [[deg (-1) (-0.5), deg (-1.5) (-1), deg (-2) 1, deg (-2.5) (-2), deg (-0.5) (-1)],
     [deg (-4) (-2), deg (-5) (-3.5), deg (-3) (-2.5)]]
    (deg 0 0) false
    [(deg (-2) 1, false), (deg (-1) (-0.5), false), (deg (-0.5) (-1), false)] = true := by
  decide +kernel

/-- test_vistree_generator.cpp:378-405 "Vistree generator collinear 5" -/
example : sees
    [[deg (-1) (-0.5), deg (-1.5) (-0.75), deg (-2) 1, deg (-2.5) (-2), deg (-0.5) (-1)],
     [deg (-4) (-2), deg (-5) (-3.5), deg (-3) (-2.5)]]
    (deg 0 0) false
    [(deg (-2) 1, false), (deg (-1) (-0.5), false), (deg (-0.5) (-1), false)] = true := by
  decide +kernel

/-- test_vistree_generator.cpp:407-435 "Vistree generator collinear 6" -/
example : sees
    [[deg (-1) (-0.5), deg (-1.5) (-1), deg (-1.25) (-0.625), deg (-2) 1, deg (-2.5) (-2), deg (-0.5)
      (-1)],
     [deg (-4) (-2), deg (-5) (-3.5), deg (-3) (-2.5)]]
    (deg 0 0) false
    [(deg (-2) 1, false), (deg (-1) (-0.5), false), (deg (-0.5) (-1), false)] = true := by
  decide +kernel

/-- test_vistree_generator.cpp:437-469 "Vistree generator enclosed periodic" -/
example : sees
    [[deg (1 + period64) 0, deg (1 + period64) 10, deg (2 + period64) 10, deg (2 + period64) (-1),
      deg ((-2) + period64) (-1), deg ((-2) + period64) 10, deg ((-1) + period64) 10, deg ((-1)
      + period64) 0],
     [deg 3 (-2), deg 4 (-3), deg 3 (-4), deg 2 (-3)]]
    (deg 360 1) false
    [(deg (-1) 10, true), (deg (-1) 0, true), (deg 1 0, true), (deg 1 10, true)] = true := by
  decide +kernel

/-- test_vistree_generator.cpp:471-503 "Vistree generator enclosed periodic 2" -/
example : sees
    [[deg 1 0, deg 1 10, deg 2 10, deg 2 (-1), deg (-2) (-1), deg (-2) 10, deg (-1) 10, deg (-1) 0],
     [deg 363 (-2), deg 364 (-3), deg 363 (-4), deg 362 (-3)]]
    (deg 0 1) false
    [(deg (-1) 10, false), (deg (-1) 0, false), (deg 1 0, false), (deg 1 10, false)] = true := by
  decide +kernel

/-- test_vistree_generator.cpp:505-537 "Vistree generator enclosed periodic 3" -/
example : sees
    [[deg 1 0, deg 1 10, deg 2 10, deg 2 (-1), deg (-2) (-1), deg (-2) 10, deg (-1) 10, deg (-1) 0],
     [deg (-357) (-2), deg (-356) (-3), deg (-357) (-4), deg (-358) (-3)]]
    (deg 0 1) false
    [(deg (-1) 10, false), (deg (-1) 0, false), (deg 1 0, false), (deg 1 10, false)] = true := by
  decide +kernel

/-- test_vistree_generator.cpp:540-575 "Vistree generator boundaries" -/
example : sees
    [[deg 180 90, deg 180 (-90), deg (-180) (-90), deg (-180) 90],
     [deg (180 + period64) 90, deg (180 + period64) (-90), deg ((-180) + period64) (-90), deg ((-180)
      + period64) 90],
     [deg (180 - period64) 90, deg (180 - period64) (-90), deg ((-180) - period64) (-90), deg ((-180)
      - period64) 90]]
    (deg (-180) 90) false
    [(deg (-180) 90, true), (deg (-180) (-90), false), (deg 180 (-90), true), (deg 180 90, true),
     (deg 180 90, false)] = true := by
  decide +kernel

/-- test_vistree_generator.cpp:577-604 "Vistree generator directly under V shape" -/
example : sees
    [[deg 0 0, deg (-0.5) 2, deg (-1) 2, deg (-1) 0, deg (-1) (-1), deg (-0.75) (-3), deg (-0.25)
      (-4), deg 0 (-2), deg 1 (-1), deg 1 0.5, deg 2 1, deg 1.5 3, deg 0 2]]
    (deg 0 0) false
    [(deg (-0.5) 2, false), (deg 0 2, false)] = true := by
  decide +kernel

/-- test_vistree_generator.cpp:606-642 "Vistree generator parallel line" -/
example : sees
    [[deg (-0.57008) 38.20505, deg (-0.514999) 38.201167, deg (-0.514999) 38.3399, deg (-0.4049)
      38.3704, deg (-0.4049) 44.9903, deg (-0.514999) 44.9903, deg (-0.514999) 44.809999, deg
      (-0.56505) 44.85002, deg (-0.57005) 44.9903, deg (-0.57008) 44.9903]]
    (deg (-0.514999) 38.201167) false
    [(deg (-0.57008) 38.20505, false), (deg (-0.514999) 38.3399, false), (deg (-0.4049) 38.3704,
     false)] = true := by
  decide +kernel

/-- test_vistree_generator.cpp:606-642 "Vistree generator parallel line" -/
example : sees
    [[deg (-0.57008) 38.20505, deg (-0.514999) 38.201167, deg (-0.514999) 38.3399, deg (-0.4049)
      38.3704, deg (-0.4049) 44.9903, deg (-0.514999) 44.9903, deg (-0.514999) 44.809999, deg
      (-0.56505) 44.85002, deg (-0.57005) 44.9903, deg (-0.57008) 44.9903]]
    (deg (-0.514999) 44.809999) false
    [(deg (-0.514999) 44.9903, false), (deg (-0.56505) 44.85002, false), (deg (-0.57005) 44.9903,
     false)] = true := by
  decide +kernel

/-- test_vistree_generator.cpp:644-666 "Vistree generator parallel line 2" -/
example : sees
    [[⟨0, 0⟩, ⟨1, 0⟩, ⟨1, 1⟩, ⟨0, 1⟩, ⟨-1, 1⟩, ⟨-1, -1⟩, ⟨0, -1⟩]]
    (⟨0, -1⟩) false
    [(⟨-1, -1⟩, false), (⟨0, 0⟩, false), (⟨1, 0⟩, false)] = true := by
  decide +kernel

/-- test_vistree_generator.cpp:668-686 "Vistree generator sees neighbors" -/
example : sees
    [[deg 11.777472 (-15.785472), deg 11.732028 (-15.890833), deg 11.808694 (-16.017527), deg 11.88
      (-15.787111)]]
    (deg 11.732028 (-15.890833)) false
    [(deg 11.808694 (-16.017527), false), (deg 11.777472 (-15.785472), false)] = true := by
  decide +kernel

end Capi.Conformance
