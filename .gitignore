.lake/
*.olean
build/
__pycache__/
