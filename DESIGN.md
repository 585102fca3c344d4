# Formal model of NewtonianEotWashToolkit (`newt`) in Lean 4

Source: `/repo/newt/*.py` (read as text, never run). Lean project: `/verif/lean`, Lean 4.33.0 with Mathlib.

## Trusted base

* Lean's kernel.
* The three standard axioms `propext`, `Classical.choice`, `Quot.sound`, which Mathlib's reals,
  complex numbers, measures and integrals need. Every property theorem depends on at most these three
  (theorems about file parsing and bookkeeping on fewer). There are no axioms of our own, no compiled
  evaluation (`decide` is used on concrete finite goals inside examples only), no unproved placeholder.
* The hand translation from Python to Lean in `Verif/Model/*`: every definition cites the Python file and
  lines it models and says what it simplifies.
* The reading of numpy/scipy recorded in `Verif/Model/Extern.lean`, as exact real/complex functions:
  `np.sqrt`, `np.exp`, `np.arctan2`, `np.arccos`, `%`, `sp.gammaln`, `sp.comb`, `sp.factorial`,
  `sp.sph_harm` (through `lpmv` and derivatives of the Legendre polynomial), `sp.spherical_in`, ...
* The specifications in `Verif/Spec/*`: the textbook notions the theorems are stated in. They do not
  mention the model's helpers.

## What is modelled and how

* Numbers: Python floats are exact reals (complexes). Rounding is modelled in separate relational models of the
  pair forces and point rotations (Model/GlibFloat, C112-C114, C120), moments, torques, forces, translations and
  rotations of moments (Model/Pg2Float, MultipoleFloat, ForceFloat, TransFloat, WigFloat, RecFloat, C127-C133) and closed-form solids (Model/SolidFloat, C134), and the
  range of exponents for the factorials of high degrees (Model/Range, C124); elsewhere overflow, underflow and signed
  zero are NOT modelled. NaN/inf are modelled where the code reaches them by a division by zero in exact arithmetic
  (`Option`/`fdiv`, `none` = NaN).
* A point array (Nx4 ndarray) is a `List` of points (mass, x, y, z).
* A moment array ((L+1)x(2L+1) complex ndarray) is a function `Fin (L+1) -> Fin (2L+1) -> Complex`;
  the Python cell `q[l, L+m]` is `q.get l m`.
* Python exceptions are `Except`/`Option` results, with the exception class where a property needs it.
  Methods that mutate an object and then raise return the half-updated object as well (`ShapeOp.run`).
* Loops are folds or finite sums over the same index ranges; in-place updates become new values.
  Aliasing (a routine returning its argument unchanged) is mentioned where the code does it.
* `read_mpc`/`read_gsq`/`read_gbq` are modelled from the list of lines on, with Python string indexing,
  `split`, `float` (partially: decimal literals), negative index wrap-around and `IndexError`/`ValueError`/`KeyError`.
* Random numbers (`spherical_random_shell`) are arguments.

| file | modelled | not modelled |
|------|----------|--------------|
| glib.py | everything (of display_points the groups, positions and sizes of the markers); gmmr2_array, yukawa_array, point_matrix_*, translate_point_array, rotate_point_array also in floating point arithmetic (Model/GlibFloat: any roundings of relative size u, any summation order, unbounded exponents) | colours and figure objects of `display_points`, overflow and underflow |
| pg2Multi.py | all six routines; qmoments and Qmomentsb also in floating point (Pg2Float) | the other four in floating point |
| clebschGordan.py | both routines; overflow and underflow of the factorials (Model/Range); rounding of cgCoeff (Model/TransFloat) | - |
| translations.py | all three routines, exactly, with overflow (Model/Range) and with rounding (Model/TransFloat) | - |
| translationRecurs.py | z-matrices, application, three drivers, the two Yukawa recursions (Model/TranslYuk) | debug prints |
| rotations.py | everything (recursion, explicit sums, application); Dlmn, Dl and rotate_qlm_Ds (Model/WigFloat), rotate_H_recurs, wignerDl and rotate_qlm (Model/RecFloat) also with rounding | dlmn and angles outside of [0, pi] in floating point |
| multipoleLib.py | everything; torque_lm, torques_at_angle (Model/MultipoleFloat), force_basis and multipole_force (Model/ForceFloat) also in floating point | multipole_force_m and torque() in floating point |
| qlm.py | everything (`cyl_mom` in Model/CylMom; sphere, cylinder, annulus and cone also in floating point arithmetic, Model/SolidFloat) | - |
| qlmNum.py, bigQlmNum.py | everything, `scipy.integrate.tplquad` idealised as the exact iterated integral | quadrature error, `print` |
| qlmACH.py | everything; `sp.ellipe`, `sp.ellipk`, `sp.hyp2f1` are the exact integrals / series | `tan` at +-pi/2 (see the comment on `platehole`), rounding |
| bigQlm.py | everything; division by zero at `r0 = 0` is one outcome whether it raises (Python floats) or gives NaN (numpy floats) | `print` |
| glibShapes.py | everything (random numbers as inputs) | the random generator |
| gShapeGL.py | everything; `np.polynomial.legendre.leggauss` is any table satisfying `Spec.Gauss` | rounding of the nodes (points exactly on a boundary) |
| shapes.py | (values: Model/Shapes; arrays as references: Model/ShapeHeap) `Shape`, `add`, `rotate`, `translate`, every subclass with both branches (Model/ShapeClasses); the mesh region of `OuterCone` is a parameter | STL files |
| genCAD.py | all mesh constructors except `outercone`, `translate_mesh`, `rotate_mesh`, `sum_mesh`; a CadQuery object is the closed region it fills (Model/GenCAD lists the meaning given to each CadQuery call) | tessellation, `save_stl`, `outercone` (its profile runs back over its first edge) |
| read_multiFor.py | the three readers, every shape of `create` (through the models of qlm, qlmNum and qlmACH) | opening files, `print` |
| matlab-src (Octave) | pointMatrixGravity, Gmmr2Array, translatePMArray, rotatePMArray, YLM, computeMoments, computeMomentSummary, scanCenterAndRemoveLinear, scanToPMArray (`griddata` is a parameter), scatterPMMassesYZGrid, SampleDemo and all generators in shapes/ (genPointMassRoundXSheet is empty and raises); `legendre_sphPlm`, `ols` (with the pseudo-inverse for collinear data), `rand` are readings of the Octave library; arrays are the point lists of Model/Glib | displayPoints*, fundamentalConstants other than G, plotting in SampleDemo |
| newt/example | the calculations of test_ligo.py, test_ligo2.py and test_virgo.py with the dimensions as parameters (Model/Examples) | plotting, printing; example_plot.py, rotationsSpeed.py and translationSpeed.py (displays and timings) |

## Layout

* `Verif/Model/*.lean`  - the model, one module per Python file.
* `Verif/Spec/*.lean`   - small independent specifications (textbook definitions).
* `Verif/Proofs/*.lean` - lemmas.
* `Verif/Props/*.lean`  - the property theorems, named `Cnn_...`, with non-vacuity examples.
* `tools/props.py` writes `properties.jsonl`; `tools/sync.sh` regenerates `Verif.lean` and `MANIFEST.json`.
* `seeded/LOG.jsonl`    - wrong programs tried against the theorems.

## Key mathematics

* Regular solid harmonics are coefficients: with the quadratic polynomial `u_v(T)` linear in `v`,
  `r^l conj(Y_lm)` is `N_lm/l!` times the coefficient of `T^(l+m)` in `u_v(T)^l` (`Spec/Solid.lean`; the
  link to scipy's `sph_harm` through the Rodrigues formula is proved in `Proofs/SphHarm.lean`). The
  addition theorem (translations) is the binomial theorem for `u_{v+w} = u_v + u_w`; rotations act by a
  Moebius substitution in `T`.
* The gravitational expansion is Legendre's generating function with an explicit remainder
  (`Proofs/Legendre.lean`, `Proofs/Addition.lean`), differentiated for forces and torques
  (`Proofs/ForceConv.lean`), and the Taylor expansion of the irregular harmonics along a segment with
  a remainder bound (`Proofs/Q2Q.lean`, `Proofs/Bipolar.lean`) for `translate_q2Q` and `translate_Qlmb`.
* Moments of solids are Lebesgue integrals over explicitly described subsets of R^3
  (`Spec/Solids.lean`), computed by Fubini, polar coordinates and fans of triangles.
* `read_mpc` is a register machine; `Spec/Mpc.lean` gives the meaning of a command file as a body, and
  `Proofs/Mpc*.lean` prove the machine computes the moments of that body.

## Plan per property

(status and exact theorem names: MANIFEST.json)

| id | model | what is proved and how |
|----|-------|------------------------|
| C01-C05, C09 | glib.py pair force, folds over lists | induction over lists, pair antisymmetry; equivariance of the pair force under isometries; coincident points give NaN exactly when stated |
| C06-C07 | Rodrigues matrix | matrix algebra with sin^2+cos^2=1 |
| C08, C45 | same | HasDerivAt of the pair energy along displacements and rotations |
| C10 | same | limit lambda -> infinity, pairwise bounds |
| C11-C17 | pg2Multi.py with scipy's sph_harm | r^l conj Y_lm = coefficient of u^l; closed forms of the three loops, including the failing cases |
| C18-C21 | translations.py | addition theorem and the stretched Clebsch-Gordan closed form |
| C22-C24 | clebschGordan.py | factorial algebra; orthogonality via polynomial identities |
| C25-C28, C46, C47 | rotations.py | rotation acts on u by Moebius substitution; the recursion is satisfied by the coefficients |
| C29, C48, C49 | translationRecurs.py | both routines equal the polynomial translation |
| C30-C33, C50-C52 | multipoleLib.py | finite sums, derivatives of finite sums; `torque()` branch by branch with witnesses for the wrong ones |
| C53, C58 | rotate_qlm on outer moments | conjugate representation |
| C34, C54, C55 | moments, energy, force, torque | Legendre expansion with remainder, differentiated term by term |
| C35-C37 | qlm.py | integration of the polynomial solid harmonics over each solid |
| C38, C39, C56, C57 | shapes.py, Shape objects, arbitrary bodies | moments of the pushed-forward measure; state machine, induction over operations |
| C40 | read_mpc | register machine; refinement against the body semantics of a program; hazards as exact error theorems; termination |
| C41 | read_gsq, read_gbq | triangular indexing, exact condition for success |
| C42-C44 | glibShapes.py | list sums; membership of each grid node |
| C59, C60 | translate_q2Q, translate_Qlmb | Taylor expansion of Y_lm/r^(l+1) along a segment with remainder, integrated over the body |
| C61 | energy of bodies | pointwise Legendre remainder integrated over both bodies |
| C62 | energy from two inner moment sets | two-centre expansion: Taylor expansion in y-x, triangle vs. square truncation |
| C63 | qlmNum constructors | `tplquad` idealised as the exact iterated integral; Fubini + polar coordinates (`integral_cylindrical`, `integral_cart`), reflection y -> -y shows the discarded imaginary part is zero |
| C64 | bigQlmNum constructors | same with the outer solid harmonics, bounded off the origin |
| C65 | bigQlm.sphere = point = ball | sph_harm = solid harmonic for the point; the ball: its q2Q translation is a constant sequence converging to the moved ball's moments (C49, C59) |
| C66 | bigQlm.annulus closed forms | every cell: two successive antiderivatives checked by differentiation, azimuthal factor, parity in z, rotation about z; wrong cells: exact discrepancy and proof it is non-zero |
| C67 | qlmACH prisms | tables transcribed cell by cell (generator in tools/ach); each cell = density x integral: planar moments of the base (Green / polar), binomial expansion of r^l conj(Y_lm) in z and (x+-iy), `ring` |
| C68 | qlmACH tetrahedron, pyramid, platehole, cylhole2 | sections + sheared disc for the plate; complete elliptic integrals by integrating total derivatives (recursions in sin^2n) |
| C69 | wrong cells of qlmACH | exact difference per cell; cylhole: hypergeometric series = binomial series of the integrand, integrated term by term; sign of the exact moment |
| C70 | qlmACH parameter checks | case analysis of the guards |
| C71 | qlmACH = qlm.py up to degree 5 | both sides equal the same volume integral (C36, C67, C68), volumes from the monopole |
| C72 | gShapeGL.rectangle has exact moments below degree 2n | solid harmonics expanded in monomials; Gauss exactness (hypothesis `Spec.Gauss`) per axis; Fubini on the box |
| C73 | gShapeGL masses add up | the final rescaling |
| C74 | where gShapeGL points lie | nodes inside (-1, 1), symmetric, with positive weights are derived from exactness (Proofs/Gauss.lean); reflection sums; second moment of the nodes |
| C75 | mesh = body for six classes and five functions | regions as sets: convex hulls, revolutions, turned prisms rewritten as the specification solids of C36 |
| C76 | meshes that are not the body | explicit regions, volumes, witness points; regular polygon = hull of roots of unity |
| C77 | sum_mesh | induction over the list |
| C78 | Cylhole, Platehole normalisation | C63 + volume > 0 (contains a ball) |
| C79 | outer branches of the classes | C66 for the two halves, glued along a null plane |
| C80 | `multipole_force` on arbitrary bodies (`Spec/Body`, `Spec/BodyForce`) | C33 + differentiation under the integral and term by term (dominated convergence) |
| C81 | `torque_lm`, `torques_at_angle` on arbitrary bodies | C31 + the same argument along a rotation |
| C82 | Yukawa z-matrices | induction over the recursion; at zero displacement the table in closed form; (1,1) against the derivative of the Bessel function |
| C83 | `qlm.cyl_mom` | associated Legendre functions as homogeneous sums, matched term by term with the moment of the cylinder, for every degree |
| C84 | `glibShapes` arrays as the grid is refined (`Spec/Approx`) | the grids are Riemann sums: Jordan-measurable solids with null boundary, dominated convergence of step functions; masses equal after rescaling |
| C85 | arrays whose limit is not the documented solid | a bump function on an open part of the solid the array never enters |
| C86 | force and torque of refined arrays, assemblies | weak convergence of the masses on compact sets, uniform over a continuous kernel (compactness); limits compared with C80, C81 |
| C87 | moments of refined arrays | the same with the solid harmonics as test functions |
| C88 | `cart_2_cyl`, `cyl_2_cart` | polar form, remainder modulo 2 pi |
| C89 | bodies with equal moments; uniform spheres | uniqueness of the limits of C61, C80, C81 (torque about x, y by turning both bodies); translation and exchange of bodies by Fubini |
| C90 | gShapeGL arrays as the rules grow | exactness on monomials; Stone-Weierstrass (products of Gauss rules converge on continuous functions); indicator of a compact set with null frontier sandwiched by thickened indicators; Tietze extension. Gauss rules of every size exist (zeros of the Rodrigues polynomial), so the hypothesis can be met |
| C91 | Octave gravity and translation | the two loops are the same fold; distances rewritten as dist3 |
| C92 | Octave rotation | matrix = the Rodrigues matrix of the opposite angle |
| C93 | Octave moments | associated Legendre functions at cos(theta); the polar angle is computed as atan(z/rxy) + pi/2, which is pi minus the polar angle: a reflection; parity of the solid harmonics |
| C94 | Octave generators | arrays rewritten as the Python grids with x and z exchanged (C84); list sums; floor bounds for the height map |
| C95 | scanCenterAndRemoveLinear | normal equations (also for a singular matrix: rank one, range argument), uniqueness of the residual by a sum of squares |
| C96 | addTurned, rotate_qlm, torque_lm, torques_at_angle | z rotations are phases (C27); geometric sum of the phases; spec `FoldSym`, `Body.ring` (Spec/Rotor) |
| C97 | rotate_qlm_Ds iterated with wignerDl matrices | induction on the number of steps; length check of the matrix list |
| C98 | translate_q2Q with multipole_force / torque_lm | the energy of a body is the integral of a harmonic polynomial over it; the error of the polynomial tends to zero uniformly in a ball (C61, C62), so by the mean value property (Proofs/MeanValue) do its differences; C80, C81 for the exact outer moments; the rate (Props/TwoCentreRate) from the explicit errors of C62 and C115 |
| C99 | newt/example/test_ligo.py, test_ligo2.py, test_virgo.py | composition of C36, C56, C96, C97, C98 |
| C100 | all gravity, moment, translation, rotation and force functions of newt and the solids of qlm | homogeneity of the kernels and of the solid harmonics; the solids by change of variable in the volume integral (C36); spec `unitsInner`, `unitsOuter` (Spec/Units) |
| C101 | point_matrix_gravity, rotate_point_array, torques_at_angle on rings | double sum reduced by cyclic symmetry; multipole side from C55; spec `ringPts`, `ringGap` (Spec/Rings) |
| C102 | spherical_random_shell, random Octave generators, gravity of shells | strong law of large numbers over a countable dense set of test functions; change of variables (Marsaglia map = uniform shell); potential of the shell by one-dimensional integration; spec `UniformDraws`, `Body.shell`, `Body.sheet` (Spec/Random). The random number generator is assumed to deliver pairwise independent uniform pairs |
| C103 | cgCoeff | ladder relation of Racah's single sum termwise, orthogonality by descent in M, norm at the top by Vandermonde's convolution, completeness from a square isometry |
| C104 | dlmn, Dl | from the polynomial form of the d matrices (`dcs`); spec `DSymm`, `dOne`, `dTwo` (Spec/Wigner) |
| C105 | cgCoeff, wignerDl, Dl | both sides solve the same skew-symmetric linear differential equation in beta (ladder relations C103 and derivative of the d matrix) with the same value at 0; then completeness |
| C106 | rotate_qlm, wignerDl, torque_lm, qlm.cylinder/annulus/cone/sphere | transformation of the solid harmonics at the unit vector z; Bonnet's recursion; spec `Axial`, `pointing`, `bonnetP` (Spec/Wigner) |
| C107 | scanToPMArray, scatterPMMassesYZGrid, genPointMassRoundXSheet, SampleDemo | membership characterisation of the arrays; extents as least/greatest; demo rows through `C91_gravity_newton` and the clockwise rotation of C92 |
| C108 | point_matrix_gravity/yukawa, translate_point_array | sharp bound for one pair of inverse-square vectors, summed; limits by squeezing; spec `WithinBall`, `totalMass`, `firstMoment`, `absMass` |
| C109 | glibShapes.annulus, point_matrix_gravity | C84 gives the limit of the arrays as a volume integral, evaluated in cylindrical coordinates (spec `plateField`); off the axis the plate is enclosed between two concentric ones |
| C110 | point_matrix_yukawa, spherical_random_shell, gShapeGL.sphere | the integral over a shell is reduced to one dimension by rotation invariance (`shell_axis`, `shell_central`) and evaluated with an antiderivative; balls are integrals of shells (`ball_shells`); arrays through the limits of C86, C90, C102; spec `yukShell`, `yukBall` |
| C111 | glibShapes.annulus, point_matrix_yukawa | as C109, with the Yukawa antiderivatives; spec `yukPlateField`, `yukSheetField` |
| C112 | gmmr2_array, point_matrix_gravity in floating point | a run is a relation (Model/GlibFloat); each intermediate is the exact value times a factor between (1-u)^k and (1-u)^-k (`Near`), dot products by induction on the summation tree, the loop by induction on the array; runs exist for every rounding rule, in particular rounding to p binary digits |
| C113 | yukawa_array, point_matrix_yukawa in floating point | as C112 with a further factor exp(relErr r/lambda) per pair (`NearC`) |
| C114 | point_matrix_gravity, translate_point_array | pair bound of C108 for displaced pairs, summed; a rounded translation is a displacement by u times the distance |
| C115 | multipole_force, torque_lm, torques_at_angle | each degree of the pair energy is Lipschitz with constant l a^(l-1)/R^(l+1) (`tm_lip`: Legendre polynomials as averages of Re zeta^i conj(zeta)^j, by generating functions); so the derivatives left out are bounded and summed; two points on a ray attain the bound; spec `missed` |
| C116 | display_points | selection of rows by the sign of the mass (Model/GlibPlot) |
| C117 | Euler angles: body axes, any orientation, composition | every rigid turn of space is z-y-z; the solid harmonics of a degree are independent, so the Wigner matrix depends on the turn alone (Proofs/Euler) |
| C118 | Bodies built from pieces | additivity of the plane moments of the bases (Proofs/Dissect), z-slices for stacking |
| C119 | qlmNum, qlmACH, qlm | each array is the volume integral over a region (C36, C63, C68); the regions are turned into each other (volume-preserving maps) or cut along a plane |
| C120 | Rounding of rotate_point_array: the floating point relation of Model/GlibFloat (norm, unit vector, sines, matrix, dot products, each operation rounded) against the exact routine | Count the roundings of every term (Proofs/Rounding), bound the row sums of absolute values of the matrix by 5; induction over successive calls; C114 for the force afterwards (Props/RotRounding) |
| C121 | gmmr2_array, yukawa_array, point_matrix_gravity | derivative of the pair force as a function of the squared distance, summed; spec `tidal`, `yukTidal` (Spec/Field); fundamental theorem of calculus along the path (Props/Field) |
| C122 | gmmr2_array, point_matrix_gravity | shell theorem for field and potential (C89, C102, inversion in the sphere), spec `sphereFlux`, `enclosed` (Spec/Field); Earnshaw from the mean value (Props/Gauss) |
| C123 | qmoments, Qmomentsb, gmmr2_array | explicit solid harmonics of degree 1 and 2 from the generating polynomial; induction over the array; gradient from C121 (Props/LowMoments) |
| C124 | cgCoeff, translations.py, Dlmn, rotate_H_recurs start, alphanm/betanm, the factor of qlm.py and the lines after it, multipole_force | second model (Model/Range, Model/RangeSolids) of the same expressions over numbers with infinities, NaN and underflow; factorial bounds, kernel arithmetic for the few large constants (Props/Range); a value that is not finite spoils every sum and product it enters (Props/RangeSolids; the sums of the solids before their common factor are left open) |
| C125 | multipole_force, torque_lm, torques_at_angle, qmoments, Qmomentsb, gmmr2_array | the truncated potential written out for degrees 1 and 2 (addition theorem), differentiated along the motion, compared with C33/C31 (Props/LowOrder, Spec/LowOrder) |
| C126 | Shape.rotate/translate/add on a memory of arrays with references (Model/ShapeHeap) | invariant (no sharing) by induction over programs; step-by-step simulation by the value model of C38; the aliased call computed exactly (Props/ShapeHeap, Spec/ShapeHeap) |
| C127 | qmoments and Qmomentsb with every operation replaced by what a floating point arithmetic may return (Model/Pg2Float; arithmetic, library accuracy and summation order are parameters) | near-relations for radii and weights; arccos Hölder and Lipschitz bounds; Lipschitz bound of Y_lm from the addition theorem; sqrt(round(z^2)) >= |z| for rounding to nearest; the lossy point computed exactly (Spec/MomRounding, Proofs/Nearest, Proofs/HarmLip, Props/MomRounding) |
| C128 | torque_lm and torques_at_angle with every operation replaced by what a floating point arithmetic may return (Model/MultipoleFloat: complex products with or without fused multiplication, columns summed in any order) | a calculus of relative errors against a majorant (`Within`: products multiply factors, sums add majorants), C127 for the moments, C115 for the truncation, sum l(l+1)x^l in closed form (Spec/TorqueRounding, Proofs/TorqueRounding, Props/TorqueRounding) |
| C129 | force_basis and multipole_force with every operation replaced by what a floating point arithmetic may return (Model/ForceFloat) | a majorant for the recursion of the solid harmonics ((5/2)^l l!/((l-m)!(l+m)!) r^l) with which the `Within` calculus of C128 goes through; C127 for the moments, C115 for the truncation, a closed form of the gross force at zero displacement (Spec/ForceRounding, Proofs/ForceRounding, Proofs/ForceRounding2, Props/ForceRounding) |
| C130 | cgCoeff, translate_qlm, translate_Qlmb, translate_q2Q with every operation replaced by what a floating point arithmetic may return (Model/TransFloat) | factors known up to a ratio (`UpTo`) through exp, sqrt and quotients, the `Within` calculus for sums; single-term coefficients at the ends of the range of J; closed sizes by Cauchy-Schwarz, orthonormality of the coefficients (C103) and the negative binomial series (Spec/TransRounding, Proofs/TransRounding, TransRounding2, TransRounding3, TransBound, Props/TransRounding) |
| C131 | compositions of the floating point routines of C127–C130 with translate_point_array and point_matrix_gravity in floating point (no new model) | the moved moments are `Within` the exact moments of the moved array (C130), put through the torque and force bounds of C128/C129; truncation by C115, moved points by C114 (Spec/ChainRounding, Props/ChainRounding) |
| C132 | Dlmn, Dl and rotate_qlm_Ds with every operation replaced by what a floating point arithmetic may return, np.dot summing the real products in any order, fused or not (Model/WigFloat) | each term up to a ratio (`UpTo`), the sums `Within` Wigner's formula without signs; that formula is at most 2^l by Cauchy-Schwarz between two pairs of binomial distributions; the exact matrices are those of the recursion (C46), unitary (C26); torque by the bounds of C131 (Spec/WigRounding, Proofs/WigRounding, Props/WigRounding) |
| C133 | rotate_H_recurs (starting values, row 1, steps 4 and 5, both copies), wignerDl and rotate_qlm with every operation replaced by what a floating point arithmetic may return, for every angle, with the reduction modulo `2*np.pi` and the reflection; the library's Legendre functions are a relation with a stated accuracy (Model/RecFloat) | starting values by ratios and the Lipschitz bound of the harmonics; the angle of a rounded cosine by Jordan's inequality; induction over the rows of the wedge with the ratio 3 from one row to the next (coefficients at most 3/2, 1, 1; exact entries at most one by unitarity); the copies cost six roundings; small tilts by nearest-double arithmetic next to one; the reduction by the range of C's fmod and the Lipschitz bound of the matrix entries from their derivative; existence of runs by a two-step recursion; moments of rotated arrays and their torque by composing with C127 and C128 (Spec/RecRounding, Proofs/RecRounding, Proofs/RecRounding2, Proofs/RecRounding3, Props/RecRounding, Props/RecRounding2) |
| C134 | sphere, cylinder (the recursive table, `np.sum` in any order), annulus and cone of qlm.py with every operation replaced by what a floating point arithmetic may return; gammaln, exp, sin and cos are library calls of a stated accuracy (Model/SolidFloat) | relative intervals carried through products and through the recursion of the cylinder; the difference of powers of the radii by the size without subtractions; the thickness by a relative interval whose width is u times (Ro^2+Ri^2)/(Ro^2-Ri^2); the exact closed forms are the integrals by C36; existence of runs from totality; negative orders by the exact mirror (Spec/SolidRounding, Proofs/SolidRounding, Proofs/SolidRounding2, Proofs/SolidRounding3, Props/SolidRounding, Props/SolidRounding2) |

## Behaviour of the code that differs from what a user expects

Proved as exact statements or negations with witnesses in the theorems named after the property.

1. `qmoments` indexes twice with the off-origin indices: IndexError or wrong when a point at the origin
   precedes others (C13); `qmoment` has a broadcasting failure (C15); `Qmomentsb` returns zeros when any
   point is at the origin (C16); `imoments` uses the top-degree Bessel function for every degree (C17).
2. `rotate_H_recurs(0)` returns a float, so `wignerDl(0, ..)` raises (C28), and with it off-axis
   recursive translations of monopole arrays (C29).
3. `torque()` on axis in 'inner-outer' mode does not convert moments (C51); 'outer-outer' off axis mirrors
   y (C52).
4. The recursive and the explicit `translate_q2Q` differ at zero displacement (copy versus NaN, C29).
5. `force_basis` at the origin with L=0 raises IndexError (C33).
6. `Shape`: converting outer to inner raises after changing com and mesh (C39); outer moments rotate the wrong
   way (C58); meshes rotate in reversed order (C57); com bookkeeping is wrong for uncentred solids (C38).
7. `glibShapes`: rectangle centring and several masses/regions (C42-C44).
8. `read_mpc`: stale registers, unknown shapes, platehole truncated at degree 5, NaN surviving `zeroqlm` and more (C40); `read_gsq/gbq` IndexError on extra
   lines, imaginary part of m=0 dropped (C41).
9. `genCAD`: Pyramid, NGon, trapezoid, cylhole and platehole meshes are not the bodies whose moments are
   computed (C76); holes must come last in `Shape.add` (C77).  `Cylhole`/`Platehole` moments are `4 pi` too large
   (C78); outer `Annulus` moments are half of what they should be, all other outer classes are zero (C79).
10. `transl_yuk_z_RR_recurs`/`transl_yuk_z_SR_recurs` have wrong signs (C82); `qlm.cyl_mom` is wrong and refuses
   monopoles (C83); a negative-mass `OuterCone` is joined to meshes instead of cut (C77).
11. Limits of `glibShapes` arrays: `sphere` fills a cube of side R, `pyramid` a pyramid of half the sides, `platehole` a
   sheared cylinder, `tri_prism`/`tetrahedron` lose the part with y < 0, `rectangle` with nx != ny is shifted (C84, C85).
12. Octave: `rotatePMArray` turns the opposite way to the Python function (C92); `computeMoments` mirrors points off the z axis,
   so moments with odd l+m have the wrong sign, and the summary leaves out l = 0 (C93); `genPointMassLine` ignores `zstart`,
   `genPointMassRect` with fractional counts loses mass silently, a height map with non-positive density gives no points (C94).
13. `rotate_qlm_Ds` given one matrix too many (as `wignerDl(LMax+1, ...)` returns) leaves the array as it is without an error (C97).
14. Octave: `scatterPMMassesYZGrid` scatters x and y instead of the documented y and z, `scanToPMArray` forgets where the scan was
   (positions are relative to the middle of its grid), `genPointMassRoundXSheet` has no body (C107).
15. `display_points` with `scale_mass` labels negative masses `(+)` and asks for markers of negative size (C116).
16. Overflow (C124): `translate_qlm`/`translate_Qlmb` return infinities or NaN from degree 50, `translate_q2Q` from 27, `Dl` from 86,
   `translate_recurs`'s coaxial matrices from 85/86; `wignerDl` loses its top starting value from degree 89 without any warning. The closed-form solids of qlm.py fill the
   entries of highest order from degree 86 on with infinities or NaN, and `multipole_force` then returns no finite number.
17. `shape.translate(shape.com, to_inner)` moves the mesh and the moments by twice the vector and `com` by once, because `self.com += tvec`
   changes the array that is passed; an array obtained as `shape.com` changes when the shape is translated (C126).
18. `qmoments` and `Qmomentsb` find the polar angle as `arccos(z/r)` and lose half of the digits for points close to the z axis: in double
   precision the computed `q11` of a unit mass at (2^-27, 0, 1) is zero (C127).
19. `rotate_H_recurs` uses the angle through its rounded cosine: in double precision `rotate_qlm` by `0 < beta <= 2^-27` (7.4e-9 rad) does not
   tilt a body of revolution about z at all (C133_small_tilt); the error of `Dl` is relative to Wigner's sum without signs instead (C132_entry).
