.lake/
build/
*.olean
__pycache__/
